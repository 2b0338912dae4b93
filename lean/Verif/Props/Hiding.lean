import Verif.Lemmas.FinTorus
import Verif.Lemmas.LeftoverHash
import Verif.Lemmas.Tlwe
import Verif.Props.Params
import Verif.Spec.Game
import Mathlib.Logic.Equiv.Fin.Basic
import Mathlib.Algebra.BigOperators.Fin

/-!
# Few ciphertexts hide their plaintexts from everyone (part of C66)

For a freshly generated key and uniform masks, `k` ciphertexts at level 0 are within statistical distance
`2^((32k-n)/2)/2` of uniform words, whatever is encrypted. So any test of the ciphertexts, however expensive,
distinguishes two strategies of choosing plaintexts with advantage at most `2^((32k-n)/2)`.
-/

namespace GoTfhe

open Finset

/-- The ciphertext with this mask and body. -/
def ctOf (n : ℕ) (a : Mask n) (b : Torus) : List Torus := tab (n + 1) fun i => if i = n then b else a.draw i

/-- The scalar product of a mask and a key. -/
def maskDot {n : ℕ} (s : Fin n → Bool) (a : Mask n) : Torus := ∑ i, if s i then BitVec.ofFin (a i) else 0

/-- The level-0 key made from these coins. -/
def keyOf {n : ℕ} (s : Fin n → Bool) : List Torus := tab n fun i => if keyCoins s i = 1 then (1 : Torus) else 0

theorem sum_mask_keyOf {n : ℕ} (s : Fin n → Bool) (a : Mask n) :
    ∑ i ∈ range n, a.draw i * at' (keyOf s) i = maskDot s a := by
  unfold maskDot
  rw [Finset.sum_range]
  refine sum_congr rfl fun i _ => ?_
  rw [keyOf, at'_tab _ _ _ i.2]
  simp only [Mask.draw, keyCoins, i.2, dif_pos, Fin.eta]
  cases s i <;> simp

theorem encrypt_ctOf (P : Params) (p e : ℚ) (s : Fin P.tlweLv0.N → Bool) (a : Mask P.tlweLv0.N) :
    tlwe0EncryptF64 P (newTLWELv0 P) p (keyOf s) a.draw e
      = some (ctOf P.tlweLv0.N a (maskDot s a + (f64ToTorus p + f64ToTorus e))) := by
  obtain ⟨c, h, hl, ha, hp⟩ := tlwe0EncryptF64_eq P (newTLWELv0 P) (keyOf s) p a.draw e (by simp [keyOf])
    (by simp [newTLWELv0])
  rw [h]
  congr 1
  have hl' : c.length = P.tlweLv0.N + 1 := by rw [hl]; simp [newTLWELv0]
  apply ext_at'
  · rw [hl']; simp [ctOf]
  · intro i hi
    rw [ctOf, at'_tab _ _ _ (by omega)]
    split_ifs with h1
    · subst h1
      unfold phase at hp
      have e1 : ∑ i ∈ range P.tlweLv0.N, at' c i * at' (keyOf s) i = maskDot s a := by
        rw [← sum_mask_keyOf]
        exact sum_congr rfl fun i hi => by rw [ha i (mem_range.1 hi)]
      rw [← hp, e1]
      ring
    · exact ha i (by omega)

/-- A session in which the scalar products are replaced by given words. -/
def ideal (n : ℕ) (v : List (List Torus) → Torus) :
    (k : ℕ) → List (List Torus) → (Fin k → Mask n) → (Fin k → Torus) → List (List Torus)
  | 0, seen, _, _ => seen
  | k + 1, seen, a, g => ideal n v k (seen ++ [ctOf n (a 0) (g 0 + v seen)]) (Fin.tail a) (Fin.tail g)

theorem session_ideal (P : Params) (choose noise : List (List Torus) → ℚ) (s : Fin P.tlweLv0.N → Bool) :
    ∀ (k : ℕ) (seen : List (List Torus)) (a : Fin k → Mask P.tlweLv0.N),
      session P (keyOf s) choose noise k seen a
        = some (ideal P.tlweLv0.N (fun l => f64ToTorus (choose l) + f64ToTorus (noise l)) k seen a
          fun j => maskDot s (a j))
  | 0, _, _ => rfl
  | k + 1, seen, a => by
    rw [session, encrypt_ctOf]
    simp only [Option.bind_eq_bind, Option.bind_some]
    rw [session_ideal P choose noise s k]
    rfl

theorem sum_succ {X : Type*} [Fintype X] (k : ℕ) (F : (Fin (k + 1) → X) → ℝ) :
    ∑ a, F a = ∑ x, ∑ a : Fin k → X, F (Fin.cons x a) := by
  rw [← (Fin.consEquiv fun _ => X).sum_comp, Fintype.sum_prod_type]
  rfl

/-- With uniform words for the scalar products, what is seen does not depend on the plaintexts. -/
theorem ideal_uniform (n : ℕ) (v : List (List Torus) → Torus) (W : List (List Torus) → ℝ) :
    ∀ (k : ℕ) (seen : List (List Torus)),
      ∑ a, ∑ g, W (ideal n v k seen a g) = ∑ a, ∑ g, W (ideal n (fun _ => 0) k seen a g)
  | 0, seen => rfl
  | k + 1, seen => by
    simp only [sum_succ k, ideal, Fin.cons_zero, Fin.tail_cons]
    refine sum_congr rfl fun a _ => ?_
    rw [sum_comm, sum_comm (s := (univ : Finset (Fin k → Mask n)))]
    rw [sum_congr rfl fun g _ => ideal_uniform n v W k (seen ++ [ctOf n a (g + v seen)])]
    rw [← Equiv.sum_comp (Equiv.addRight (v seen)) fun g =>
      ∑ x : Fin k → Mask n, ∑ y, W (ideal n (fun _ => 0) k (seen ++ [ctOf n a (g + 0)]) x y)]
    simp

/-- The scalar products with the masks, as a homomorphism. -/
def dotHom (n k : ℕ) (s : Fin n → Bool) : (Fin k → Mask n) →+ (Fin k → Torus) where
  toFun a j := maskDot s (a j)
  map_zero' := by
    funext j
    exact sum_eq_zero fun i _ => by split_ifs <;> rfl
  map_add' a b := by
    funext j
    simp only [maskDot, Pi.add_apply]
    rw [← sum_add_distrib]
    refine sum_congr rfl fun i _ => ?_
    split_ifs
    · rfl
    · simp

theorem maskDot_single {n : ℕ} (s : Fin n → Bool) (i : Fin n) (x : Fin (2 ^ 32)) :
    maskDot s (fun l => if l = i then x else 0) = if s i then BitVec.ofFin x else 0 := by
  unfold maskDot
  rw [sum_eq_single i]
  · simp
  · intro l _ hl
    simp only [if_neg hl]
    split_ifs <;> rfl
  · simp

theorem dotHom_surj (n k : ℕ) (s s' : Fin n → Bool) (h : s ≠ s') : Function.Surjective (dotHom n k s - dotHom n k s') := by
  obtain ⟨i, hi⟩ := Function.ne_iff.1 h
  intro g
  refine ⟨fun j l => if l = i then (if s i then (g j).toFin else (-(g j)).toFin) else 0, ?_⟩
  funext j
  show maskDot s _ - maskDot s' _ = _
  rw [maskDot_single, maskDot_single]
  cases h1 : s i <;> cases h2 : s' i <;> simp_all
  · show (0 : Torus) - -(g j) = g j
    ring

theorem keyOf_newSecretKey (P : Params) (s : Fin P.tlweLv0.N → Bool) (coin1 : ℕ → ℕ) :
    ∃ k1, newSecretKey P (keyCoins s) coin1 = some ⟨keyOf s, k1⟩ := by
  unfold newSecretKey
  rw [keyLoop_eq, keyLoop_eq]
  exact ⟨_, rfl⟩

theorem game_ideal (P : Params) (choose noise : List (List Torus) → ℚ) (coin1 : ℕ → ℕ) (k : ℕ)
    (r : (Fin P.tlweLv0.N → Bool) × (Fin k → Mask P.tlweLv0.N)) :
    game P choose noise coin1 k r
      = some (ideal P.tlweLv0.N (fun l => f64ToTorus (choose l) + f64ToTorus (noise l)) k [] r.2
          (dotHom P.tlweLv0.N k r.1 r.2)) := by
  obtain ⟨k1, e⟩ := keyOf_newSecretKey P r.1 coin1
  unfold game
  rw [e]
  exact session_ideal P choose noise r.1 k [] r.2

theorem uprob_prod {S A : Type*} [Fintype S] [Fintype A] (E : S × A → Prop) [DecidablePred E] :
    uprob E = (∑ a, ∑ s, if E (s, a) then (1 : ℝ) else 0) / (Fintype.card A * Fintype.card S) := by
  unfold uprob
  rw [Fintype.card_prod, Nat.cast_mul, mul_comm (Fintype.card S : ℝ)]
  congr 1
  rw [sum_comm, ← Fintype.sum_prod_type (fun p : S × A => if E p then (1 : ℝ) else 0), ← sum_filter, sum_const,
    nsmul_eq_mul, mul_one, Set.ncard_eq_toFinset_card', Set.toFinset_setOf]

/-- **C66**, the information-theoretic part: any test of `k` ciphertexts made under a fresh key with uniform masks
tells two ways of choosing plaintexts (each from the ciphertexts before it) and noise apart with advantage at most
`sqrt ((2^32)^k / 2^n)`. Missing for the full claim: more ciphertexts than the key has entropy for, and the readers of
public, cloud and re-encryption keys, where only a bound on the work of the reader can help. -/
theorem C66_hiding_partial (P : Params) (k : ℕ) (choose choose' noise noise' : List (List Torus) → ℚ)
    (coin1 : ℕ → ℕ) (test : Option (List (List Torus)) → Prop) :
    |uprob (fun r => test (game P choose noise coin1 k r)) - uprob (fun r => test (game P choose' noise' coin1 k r))|
      ≤ Real.sqrt ((2 ^ 32) ^ k / 2 ^ P.tlweLv0.N) := by
  classical
  have key : ∀ ch ns : List (List Torus) → ℚ,
      |uprob (fun r => test (game P ch ns coin1 k r))
        - (∑ a, ∑ g, if test (some (ideal P.tlweLv0.N (fun _ => 0) k [] a g)) then (1 : ℝ) else 0)
          / (Fintype.card (Fin k → Mask P.tlweLv0.N) * Fintype.card (Fin k → Torus))|
        ≤ 1 / 2 * Real.sqrt ((2 ^ 32) ^ k / 2 ^ P.tlweLv0.N) := by
    intro ch ns
    have L := leftover_hash (dotHom P.tlweLv0.N k) (dotHom_surj P.tlweLv0.N k)
      (fun a g => if test (some (ideal P.tlweLv0.N (fun l => f64ToTorus (ch l) + f64ToTorus (ns l)) k [] a g))
        then (1 : ℝ) else 0) (fun a g => by split_ifs <;> simp)
    rw [ideal_uniform P.tlweLv0.N _ (fun l => if test (some l) then (1 : ℝ) else 0)] at L
    rw [uprob_prod]
    simp only [game_ideal]
    refine L.trans (le_of_eq ?_)
    congr 2
    rw [Fintype.card_fun, Fintype.card_fun, card_torus, Fintype.card_fin, Fintype.card_bool, Fintype.card_fin]
    push_cast
    norm_num
  have h1 := abs_le.1 (key choose noise)
  have h2 := abs_le.1 (key choose' noise')
  rw [abs_le]
  constructor <;> linarith [h1.1, h1.2, h2.1, h2.2]

theorem sqrt_le_half_pow (k n m : ℕ) (h : 32 * k + 2 * m ≤ n) :
    Real.sqrt ((2 ^ 32) ^ k / 2 ^ n) ≤ 1 / 2 ^ m := by
  apply Real.sqrt_le_iff.2 ⟨by positivity, ?_⟩
  rw [div_pow, one_pow, ← pow_mul, ← pow_mul, div_le_div_iff₀ (by positivity) (by positivity), ← pow_add, one_mul]
  exact pow_le_pow_right₀ (by norm_num) (by omega)

theorem lv0_ge (level : SecurityLevel) : 550 ≤ (paramsFor level).tlweLv0.N := by
  rcases paramsFor_cases level with h | h | h | h | h | h | h | h | h | h | h <;> rw [h.2] <;> decide

/-- **C66** at the security levels: nine ciphertexts of any plaintexts are told apart from nine ciphertexts of any
others with advantage at most `2^-131` at every level, and fourteen with at most `2^-126` at 128 bits. -/
theorem C66_levels_partial (level : SecurityLevel) (k : ℕ) (choose choose' noise noise' : List (List Torus) → ℚ)
    (coin1 : ℕ → ℕ) (test : Option (List (List Torus)) → Prop) :
    (k ≤ 9 → |uprob (fun r => test (game (paramsFor level) choose noise coin1 k r))
        - uprob (fun r => test (game (paramsFor level) choose' noise' coin1 k r))| ≤ 1 / 2 ^ 131) ∧
    (level = 128 → k ≤ 14 → |uprob (fun r => test (game (paramsFor level) choose noise coin1 k r))
        - uprob (fun r => test (game (paramsFor level) choose' noise' coin1 k r))| ≤ 1 / 2 ^ 126) := by
  constructor
  · intro hk
    have := lv0_ge level
    exact (C66_hiding_partial _ k choose choose' noise noise' coin1 test).trans (sqrt_le_half_pow _ _ _ (by omega))
  · rintro rfl hk
    have : (paramsFor 128).tlweLv0.N = 700 := by decide
    exact (C66_hiding_partial _ k choose choose' noise noise' coin1 test).trans (sqrt_le_half_pow _ _ _ (by omega))

/-- The game always runs: the sessions compared are not panics. -/
theorem C66_runs (P : Params) (choose noise : List (List Torus) → ℚ) (coin1 : ℕ → ℕ) (k : ℕ)
    (r : (Fin P.tlweLv0.N → Bool) × (Fin k → Mask P.tlweLv0.N)) :
    ∃ cts, game P choose noise coin1 k r = some cts ∧ cts.length = k := by
  refine ⟨_, game_ideal P choose noise coin1 k r, ?_⟩
  have : ∀ (v : List (List Torus) → Torus) (k : ℕ) (seen : List (List Torus)) (a : Fin k → Mask P.tlweLv0.N)
      (g : Fin k → Torus), (ideal P.tlweLv0.N v k seen a g).length = seen.length + k := by
    intro v k
    induction k with
    | zero => intro seen a g; rfl
    | succ k ih =>
      intro seen a g
      rw [ideal, ih, List.length_append, List.length_singleton]
      omega
  rw [this, List.length_nil, Nat.zero_add]

/-- Instance: a reader of one ciphertext at 128 bits who wants to know whether `true` or `false` was encrypted. -/
example (test : Option (List (List Torus)) → Prop) :
    |uprob (fun r => test (game (paramsFor 128) (fun _ => 0.125) (fun _ => 0) (fun _ => 0) 1 r))
      - uprob (fun r => test (game (paramsFor 128) (fun _ => -0.125) (fun _ => 0) (fun _ => 0) 1 r))| ≤ 1 / 2 ^ 131 :=
  (C66_levels_partial 128 1 _ _ _ _ _ test).1 (by norm_num)

end GoTfhe
