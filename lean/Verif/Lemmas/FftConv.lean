import Verif.Lemmas.FftRun

/-! # Twiddle factors, conversions and pointwise operations in closed form -/

namespace GoTfhe

variable {R : Type} (A : Arith R)

/-! ### Twiddle factors -/

/-- Factor number `i` of the stage with `2^s` blocks -/
def twF (k s i : ℕ) : R × R :=
  cmul A (0, 2 ^ s, i) (A.cexp (twAngle A (2 ^ k) (rev (k - 1) i))) (A.cexp (foldAngle A 2 (2 ^ k) (2 ^ (k - 1 - s))))

/-- Its counterpart in the inverse transform -/
def twI (k s i : ℕ) : R × R :=
  cmul A (1, 2 ^ s, i) (A.cexp (A.neg (twAngle A (2 ^ k) (rev (k - 1) i)))) (A.cexp (foldAngle A (-2) (2 ^ k) (2 ^ (k - 1 - s))))

/-- All forward factors by index -/
def twFAll (k x : ℕ) : R × R := twF A k (Nat.log2 (x + 1)) (x + 1 - 2 ^ Nat.log2 (x + 1))

/-- All inverse factors by index -/
def twIAll (k y : ℕ) : R × R :=
  twI A k (Nat.log2 (2 ^ k - 1 - y)) (y + 2 ^ (Nat.log2 (2 ^ k - 1 - y) + 1) - 2 ^ k)

theorem log2_block (s i : ℕ) (hi : i < 2 ^ s) : Nat.log2 (2 ^ s + i) = s := by
  have h0 : 0 < 2 ^ s := Nat.pow_pos (by omega)
  rw [Nat.log2_eq_iff (by omega)]
  refine ⟨by omega, ?_⟩
  rw [pow_succ]; omega

theorem twFAll_eq (k s i : ℕ) (hi : i < 2 ^ s) : twFAll A k (2 ^ s - 1 + i) = twF A k s i := by
  have h0 : 0 < 2 ^ s := Nat.pow_pos (by omega)
  have e : 2 ^ s - 1 + i + 1 = 2 ^ s + i := by omega
  rw [twFAll, e, log2_block s i hi]
  congr 1
  omega

theorem twIAll_eq (k j i : ℕ) (hj : j < k) (hi : i < 2 ^ (k - 1 - j)) :
    twIAll A k (2 ^ k - 2 ^ (k - j) + i) = twI A k (k - 1 - j) i := by
  have e1 : 2 ^ (k - j) = 2 * 2 ^ (k - 1 - j) := by
    rw [← pow_succ']; congr 1; omega
  have hle : 2 ^ (k - j) ≤ 2 ^ k := Nat.pow_le_pow_right (by omega) (by omega)
  have e : 2 ^ k - 1 - (2 ^ k - 2 ^ (k - j) + i) = 2 ^ (k - 1 - j) + (2 ^ (k - 1 - j) - 1 - i) := by omega
  rw [twIAll, e, log2_block _ _ (by omega)]
  congr 1
  rw [show k - 1 - j + 1 = k - j by omega]
  omega

theorem forRange_append {α : Type} (n m : ℕ) (g : ℕ → α) (src : ℕ → Option α)
    (h : ∀ i < m, src i = some (g (n + i))) :
    (forRange 0 m (tab n g) fun i l => do
      let x ← src i
      pure (l ++ [x])) = some (tab (n + m) g) := by
  let S : ℕ → List α := fun i => tab (n + i) g
  have := forRange_eq m (fun i l => do
      let x ← src i
      pure (l ++ [x])) S ?_
  · exact this
  · intro i hi
    simp only [S, h i hi, Option.bind_eq_bind, Option.bind_some, Option.pure_def]
    congr 1
    rw [tab, tab, ← Nat.add_assoc, List.range_succ, List.map_append]
    rfl

theorem range_map_eq_tab {α : Type} (n : ℕ) (g : ℕ → α) : (List.range n).map g = tab n g := rfl

theorem genTwiddle_eq (k : ℕ) (hk : 1 ≤ k) :
    genTwiddleFactors A (2 ^ k) = some (tab (2 ^ k - 1) (twFAll A k), tab (2 ^ k - 1) (twIAll A k)) := by
  obtain ⟨d, rfl⟩ : ∃ d, k = d + 1 := ⟨k - 1, by omega⟩
  have hd : 2 ^ (d + 1) / 2 = 2 ^ d := by rw [pow_succ]; simp
  have hlt : d < 2 ^ d := Nat.lt_two_pow_self
  rw [genTwiddleFactors]
  simp only [hd, range_map_eq_tab, bitReverse_tab, Option.bind_eq_bind, Option.bind_some]
  let S : ℕ → ℕ × List (R × R) := fun s => (2 ^ d / 2 ^ s, tab (2 ^ s - 1) (twFAll A (d + 1)))
  have h0 : ((2 ^ d, []) : ℕ × List (R × R)) = S 0 := by simp [S, tab]
  have hF := forDbl_eq d (fun m (st : ℕ × List (R × R)) =>
      (forRange 0 m st.2 fun i tw =>
        (rd (tab (2 ^ d) fun x => A.cexp (twAngle A (2 ^ (d + 1)) (rev d x))) i).bind fun x =>
        pure (tw ++ [cmul A (0, m, i) x (A.cexp (foldAngle A 2 (2 ^ (d + 1)) st.1))])).bind fun tw =>
      pure (st.1 >>> 1, tw)) S (d + 1) 0 (2 ^ d + 1) (by omega) (by omega) (by
    intro s _ hs
    simp only [S]
    have hle : 2 ^ s ≤ 2 ^ d := Nat.pow_le_pow_right (by omega) hs
    have h0 : 0 < 2 ^ s := Nat.pow_pos (by omega)
    have ht : 2 ^ d / 2 ^ s = 2 ^ (d - s) := Nat.pow_div hs (by omega)
    have := forRange_append (2 ^ s - 1) (2 ^ s) (twFAll A (d + 1)) (fun i =>
      (rd (tab (2 ^ d) fun x => A.cexp (twAngle A (2 ^ (d + 1)) (rev d x))) i).bind fun x =>
        some (cmul A (0, 2 ^ s, i) x (A.cexp (foldAngle A 2 (2 ^ (d + 1)) (2 ^ d / 2 ^ s))))) (by
      intro i hi
      rw [rd_tab _ _ _ (by omega), Option.bind_some, twFAll_eq A _ s i hi, twF, ht]
      rfl)
    simp only [Option.bind_eq_bind, Option.bind_assoc, Option.bind_some] at this
    rw [this, Option.bind_some, Option.pure_def, Nat.shiftRight_eq_div_pow, Nat.div_div_eq_div_mul, ← pow_add]
    congr 3
    rw [pow_succ]; omega)
  rw [h0]
  rw [show (1 : ℕ) = 2 ^ 0 from rfl] at *
  simp only [pow_zero] at hF ⊢
  rw [hF, Option.bind_some]
  let T : ℕ → ℕ × List (R × R) := fun j => (2 ^ j, tab (2 ^ (d + 1) - 2 ^ (d + 1 - j)) (twIAll A (d + 1)))
  have hT0 : ((1, []) : ℕ × List (R × R)) = T 0 := by simp [T, tab]
  have hI := forHalf1_eq (fun m (st : ℕ × List (R × R)) =>
      (forRange 0 m st.2 fun i tw =>
        (rd (tab (2 ^ d) fun x => A.cexp (A.neg (twAngle A (2 ^ (d + 1)) (rev d x)))) i).bind fun x =>
        pure (tw ++ [cmul A (1, m, i) x (A.cexp (foldAngle A (-2) (2 ^ (d + 1)) st.1))])).bind fun tw =>
      pure (st.1 <<< 1, tw)) d (2 ^ d + 1) T (by omega) (by
    intro j hj
    simp only [T]
    have hle : 2 ^ (d - j) ≤ 2 ^ d := Nat.pow_le_pow_right (by omega) (by omega)
    have h1 : 2 ^ (d + 1 - j) = 2 * 2 ^ (d - j) := by
      rw [← pow_succ']; congr 1; omega
    have h2 : 2 ^ (d + 1) = 2 * 2 ^ d := by ring
    have := forRange_append (2 ^ (d + 1) - 2 ^ (d + 1 - j)) (2 ^ (d - j)) (twIAll A (d + 1)) (fun i =>
      (rd (tab (2 ^ d) fun x => A.cexp (A.neg (twAngle A (2 ^ (d + 1)) (rev d x)))) i).bind fun x =>
        some (cmul A (1, 2 ^ (d - j), i) x (A.cexp (foldAngle A (-2) (2 ^ (d + 1)) (2 ^ j))))) (by
      intro i hi
      rw [rd_tab _ _ _ (by omega), Option.bind_some, twIAll_eq A _ j i (by omega) (by simpa using hi), twI]
      rw [show d + 1 - 1 - (d + 1 - 1 - j) = j by omega, show d + 1 - 1 - j = d - j by omega]
      rfl)
    simp only [Option.bind_eq_bind, Option.bind_assoc, Option.bind_some] at this
    rw [this, Option.bind_some, Option.pure_def, Nat.shiftLeft_eq, ← pow_add]
    congr 3
    rw [show d + 1 - (j + 1) = d - j by omega]
    omega)
  rw [hT0, hI, Option.bind_some]
  simp [S, T]

/-! ### Conversions -/

/-- The place of the real part of complex number `p` (its imaginary part is four further on) -/
def lane (p : ℕ) : ℕ := 8 * (p / 4) + p % 4

/-- The folded polynomial: coefficient `x` and coefficient `x + M` as one complex number -/
def foldP (M : ℕ) (p : List Torus) (x : ℕ) : R × R :=
  (A.ofInt (at' p x).toInt, A.ofInt (at' p (x + M)).toInt)

theorem convertPolyToFourier_pack (B : ℕ) (p : List Torus) (hp : p.length = 8 * B) (z : ℕ → R × R) :
    convertPolyToFourier A p (pack (8 * B) z) = some (pack (8 * B) (foldP A (4 * B) p)) := by
  rw [convertPolyToFourier]
  simp only [hp, show (8 * B + 7) / 8 = B by omega, show 8 * B / 2 = 4 * B by omega]
  let S : ℕ → List R := fun b => pack (8 * B) fun x => if x / 4 < b then foldP A (4 * B) p x else z x
  have h0 : pack (8 * B) z = S 0 := by simp [S]
  rw [h0, forRange_eq B _ S]
  · congr 1
    apply pack_congr
    intro x hx
    rw [if_pos (by omega)]
  · intro b hb
    simp only [S, Option.bind_eq_bind]
    let S1 : ℕ → List R := fun o => pack (8 * B) fun x => if x / 4 < b then foldP A (4 * B) p x else
      if x / 4 = b ∧ x % 4 < o then ((foldP A (4 * B) p x).1, (z x).2) else z x
    have e0 : (pack (8 * B) fun x => if x / 4 < b then foldP A (4 * B) p x else z x) = S1 0 := by
      simp [S1]
    rw [e0, forRange_eq 4 _ S1]
    · rw [Option.bind_some]
      let S2 : ℕ → List R := fun o => pack (8 * B) fun x => if x / 4 < b then foldP A (4 * B) p x else
        if x / 4 = b then ((foldP A (4 * B) p x).1, if x % 4 < o then (foldP A (4 * B) p x).2 else (z x).2) else z x
      have e1 : S1 4 = S2 0 := by
        apply pack_congr
        intro x hx
        have := Nat.mod_lt x (show 0 < 4 by omega)
        simp only [this, and_true, Nat.not_lt_zero, if_false]
      rw [e1, forRange_eq 4 _ S2]
      · congr 1
        apply pack_congr
        intro x hx
        have := Nat.mod_lt x (show 0 < 4 by omega)
        simp only [this, if_true]
        by_cases h1 : x / 4 < b
        · rw [if_pos h1, if_pos (by omega)]
        · rw [if_neg h1]
          by_cases h2 : x / 4 = b
          · rw [if_pos h2, if_pos (by omega)]
          · rw [if_neg h2, if_neg (by omega)]
      · intro o ho
        simp only [S2]
        rw [rd_at' _ _ (by omega), Option.bind_some, wr_pack_im B _ b o _ _ hb ho (by omega)]
        congr 1
        apply pack_congr
        intro x hx
        by_cases h1 : x = 4 * b + o
        · subst h1
          have a1 : ¬ (4 * b + o) / 4 < b := by omega
          have a2 : (4 * b + o) / 4 = b := by omega
          have a3 : (4 * b + o) % 4 < o + 1 := by omega
          rw [if_pos rfl]
          simp only [if_neg a1, if_pos a2, if_pos a3]
          simp only [foldP]
          rw [show 4 * b + 4 * B + o = 4 * b + o + 4 * B by omega]
        · rw [if_neg h1]
          by_cases h2 : x / 4 < b
          · rw [if_pos h2, if_pos h2]
          · rw [if_neg h2, if_neg h2]
            by_cases h3 : x / 4 = b
            · rw [if_pos h3, if_pos h3]
              congr 1
              by_cases h4 : x % 4 < o
              · rw [if_pos h4, if_pos (by omega)]
              · rw [if_neg h4, if_neg (by omega)]
            · rw [if_neg h3, if_neg h3]
    · intro o ho
      simp only [S1]
      rw [rd_at' _ _ (by omega), Option.bind_some, wr_pack_re B _ b o _ _ hb ho (by omega)]
      congr 1
      apply pack_congr
      intro x hx
      by_cases h1 : x = 4 * b + o
      · subst h1
        rw [if_pos rfl, if_neg (by omega), if_neg (by omega), if_neg (by omega), if_pos (by omega)]
        simp only [foldP]
      · rw [if_neg h1]
        by_cases h2 : x / 4 < b
        · rw [if_pos h2, if_pos h2]
        · rw [if_neg h2, if_neg h2]
          by_cases h3 : x / 4 = b ∧ x % 4 < o
          · rw [if_pos h3, if_pos (by omega)]
          · rw [if_neg h3, if_neg (by omega)]

theorem blockLoop_eq {σ : Type*} (B : ℕ) (body : ℕ → σ → Option σ) (S : ℕ → σ)
    (h : ∀ x < 8 * B, body x (S x) = some (S (x + 1))) :
    (forStep 0 (8 * B) 8 (S 0) fun i s => forRange 0 8 s fun o s => body (i + o) s) = some (S (8 * B)) := by
  have := forStep_eq 0 B 8 (by omega) (fun b => S (8 * b))
    (fun i s => forRange 0 8 s fun o s => body (i + o) s) (by
      intro b hb
      have := forRange_eq 8 (fun o s => body (0 + 8 * b + o) s) (fun o => S (8 * b + o)) (by
        intro o ho
        have := h (8 * b + o) (by omega)
        simpa [Nat.add_assoc] using this)
      exact this)
  simpa using this

theorem floatModQ_pack (B : ℕ) (Q : R) (z : ℕ → R × R) :
    floatModQInPlace A (pack (8 * B) z) Q
      = some (pack (8 * B) fun p => (modQ A (4, 0, lane p) Q (z p).1, modQ A (4, 0, lane p + 4) Q (z p).2)) := by
  rw [floatModQInPlace, length_pack]
  let g : ℕ → R := fun x => if x % 8 < 4 then (z (4 * (x / 8) + x % 8)).1 else (z (4 * (x / 8) + (x % 8 - 4))).2
  let S : ℕ → List R := fun n => tab (8 * B) fun x => if x < n then modQ A (4, 0, x) Q (g x) else g x
  have h0 : pack (8 * B) z = S 0 := by simp [S, pack, g]
  rw [h0, blockLoop_eq B (fun x c => do
    let y ← rd c x
    wr c x (modQ A (4, 0, x) Q y)) S]
  · congr 1
    apply tab_congr
    intro x hx
    rw [if_pos hx]
    simp only [g, lane]
    split_ifs
    · congr 3; omega
    · congr 3; omega
  · intro x hx
    simp only [S, Option.bind_eq_bind]
    rw [rd_tab _ _ _ hx, Option.bind_some, if_neg (by omega), wr_eq _ _ _ (by simpa using hx)]
    congr 1
    apply eq_tab_of _ _ _ (by simp)
    intro y hy
    rw [List.getElem_set]
    simp only [getElem_tab]
    by_cases h1 : x = y
    · subst h1; rw [if_pos rfl, if_pos (by omega)]
    · rw [if_neg h1]
      by_cases h2 : y < x
      · rw [if_pos h2, if_pos (by omega)]
      · rw [if_neg h2, if_neg (by omega)]

/-- The coefficients of the polynomial read off the complex numbers `z` -/
def unfoldP (M : ℕ) (z : ℕ → R × R) (i : ℕ) : Torus :=
  BitVec.ofInt 32 (A.toInt (if i < M then (z i).1 else (z (i - M)).2))

theorem convertFourierToPoly_pack (g : Torus → Torus → Torus) (B : ℕ) (z : ℕ → R × R) (p : List Torus)
    (hp : p.length = 8 * B) :
    convertFourierToPoly A g (pack (8 * B) z) p
      = some (tab (8 * B) fun i => g (at' p i) (unfoldP A (4 * B) z i)) := by
  rw [convertFourierToPoly]
  simp only [length_pack, show (8 * B + 7) / 8 = B by omega, show 8 * B / 2 = 4 * B by omega]
  set G : ℕ → Torus := fun i => g (at' p i) (unfoldP A (4 * B) z i) with hG
  let S : ℕ → List Torus := fun b => tab (8 * B) fun i =>
    if i < 4 * b ∨ (4 * B ≤ i ∧ i < 4 * B + 4 * b) then G i else at' p i
  have h0 : p = S 0 := by
    apply eq_tab_of _ _ _ hp
    intro i hi
    rw [if_neg (by omega), at'_of_lt _ _ hi]
  have hlist : ∀ (F : ℕ → Torus) (c x : ℕ) (v : Torus), x < 8 * B →
      wr (tab (8 * B) F) x v = some (tab (8 * B) fun i => if i = x then v else F i) := by
    intro F c x v hx
    rw [wr_eq _ _ _ (by simpa using hx)]
    congr 1
    apply eq_tab_of _ _ _ (by simp)
    intro y hy
    rw [List.getElem_set]
    simp only [getElem_tab]
    by_cases h1 : x = y
    · rw [if_pos h1, if_pos h1.symm]
    · rw [if_neg h1, if_neg (Ne.symm h1)]
  conv_lhs => rw [h0]
  rw [forRange_eq B _ S]
  · congr 1
    apply tab_congr
    intro i hi
    rw [if_pos (by omega)]
  · intro b hb
    simp only [S, Option.bind_eq_bind]
    let S1 : ℕ → List Torus := fun o => tab (8 * B) fun i =>
      if i < 4 * b + o ∨ (4 * B ≤ i ∧ i < 4 * B + 4 * b) then G i else at' p i
    let S2 : ℕ → List Torus := fun o => tab (8 * B) fun i =>
      if i < 4 * b + 4 ∨ (4 * B ≤ i ∧ i < 4 * B + 4 * b + o) then G i else at' p i
    have e1 : forRange 0 4 (S1 0) (fun o q =>
        (rd (pack (8 * B) z) (8 * b + o)).bind fun x => (rd q (4 * b + o)).bind fun y =>
        wr q (4 * b + o) (g y (BitVec.ofInt 32 (A.toInt x)))) = some (S1 4) := by
      apply forRange_eq 4 _ S1
      intro o ho
      simp only [S1]
      rw [rd_pack_re B z b o _ hb ho rfl, Option.bind_some, rd_tab _ _ _ (by omega), Option.bind_some,
        if_neg (by omega), hlist _ 0 _ _ (by omega)]
      congr 1
      apply tab_congr
      intro i hi
      by_cases h1 : i = 4 * b + o
      · subst h1
        rw [if_pos rfl, if_pos (by omega), hG]
        simp only [unfoldP]
        rw [if_pos (by omega)]
      · rw [if_neg h1]
        by_cases h2 : i < 4 * b + o ∨ (4 * B ≤ i ∧ i < 4 * B + 4 * b)
        · rw [if_pos h2, if_pos (by omega)]
        · rw [if_neg h2, if_neg (by omega)]
    have e2 : forRange 0 4 (S2 0) (fun o q =>
        (rd (pack (8 * B) z) (8 * b + 4 + o)).bind fun x => (rd q (4 * b + 4 * B + o)).bind fun y =>
        wr q (4 * b + 4 * B + o) (g y (BitVec.ofInt 32 (A.toInt x)))) = some (S2 4) := by
      apply forRange_eq 4 _ S2
      intro o ho
      simp only [S2]
      rw [rd_pack_im B z b o _ hb ho (by omega), Option.bind_some, rd_tab _ _ _ (by omega), Option.bind_some,
        if_neg (by omega), hlist _ 0 _ _ (by omega)]
      congr 1
      apply tab_congr
      intro i hi
      by_cases h1 : i = 4 * b + 4 * B + o
      · subst h1
        rw [if_pos rfl, if_pos (by omega), hG]
        simp only [unfoldP]
        rw [if_neg (by omega)]
        congr 5
        omega
      · rw [if_neg h1]
        by_cases h2 : i < 4 * b + 4 ∨ (4 * B ≤ i ∧ i < 4 * B + 4 * b + o)
        · rw [if_pos h2, if_pos (by omega)]
        · rw [if_neg h2, if_neg (by omega)]
    have c0 : (tab (8 * B) fun i => if i < 4 * b ∨ (4 * B ≤ i ∧ i < 4 * B + 4 * b) then G i else at' p i)
      = S1 0 := rfl
    rw [c0, e1, Option.bind_some]
    have c1 : S1 4 = S2 0 := rfl
    rw [c1, e2]
    congr 1

/-! ### Pointwise operations -/

/-- The operand `v` stands for the complex numbers `a`, given that the output holds `z`. -/
def Opnd (B : ℕ) (z : ℕ → R × R) (v : Option (List R)) (a : ℕ → R × R) : Prop :=
  (v = none ∧ ∀ p < 4 * B, a p = z p) ∨ v = some (pack (8 * B) a)

theorem cmplxLoop_pack (f : ℕ → R × R → R × R → R × R → R × R) (B : ℕ) (v0 v1 : Option (List R))
    (z a b : ℕ → R × R) (h0 : Opnd B z v0 a) (h1 : Opnd B z v1 b) :
    cmplxLoop f v0 v1 (pack (8 * B) z) = some (pack (8 * B) fun p => f p (a p) (b p) (z p)) := by
  rw [cmplxLoop, length_pack]
  let S : ℕ → ℕ → R × R := fun n p => if p < n then f p (a p) (b p) (z p) else z p
  have hop : ∀ (v : Option (List R)) (c : ℕ → R × R), Opnd B z v c → ∀ β o, β < B → o < 4 →
      rd (v.getD (pack (8 * B) (S (4 * β + o)))) (8 * β + o) = some (c (4 * β + o)).1 ∧
      rd (v.getD (pack (8 * B) (S (4 * β + o)))) (8 * β + o + 4) = some (c (4 * β + o)).2 := by
    intro v c hv β o hβ ho
    rcases hv with ⟨rfl, hc⟩ | rfl
    · simp only [Option.getD_none]
      rw [rd_pack_re B _ β o _ hβ ho rfl, rd_pack_im B _ β o _ hβ ho rfl, hc _ (by omega)]
      simp only [S, lt_irrefl, if_false, and_self]
    · simp only [Option.getD_some]
      rw [rd_pack_re B _ β o _ hβ ho rfl, rd_pack_im B _ β o _ hβ ho rfl]
      simp
  have := forStep_eq 0 B 8 (by omega) (fun n => pack (8 * B) (S (4 * n))) (fun i out =>
    forRange 0 4 out fun o out => do
      let a ← rd (v0.getD out) (i + o)
      let b ← rd (v0.getD out) (i + o + 4)
      let c ← rd (v1.getD out) (i + o)
      let d ← rd (v1.getD out) (i + o + 4)
      let x ← rd out (i + o)
      let y ← rd out (i + o + 4)
      let r := f (i / 2 + o) (a, b) (c, d) (x, y)
      let out ← wr out (i + o) r.1
      wr out (i + o + 4) r.2) (by
    intro β hβ
    rw [Nat.zero_add]
    apply forRange_eq 4 _ (fun o => pack (8 * B) (S (4 * β + o)))
    intro o ho
    simp only [Option.bind_eq_bind]
    rw [(hop v0 a h0 β o hβ ho).1, Option.bind_some, (hop v0 a h0 β o hβ ho).2, Option.bind_some,
      (hop v1 b h1 β o hβ ho).1, Option.bind_some, (hop v1 b h1 β o hβ ho).2, Option.bind_some,
      rd_pack_re B _ β o _ hβ ho rfl, Option.bind_some, rd_pack_im B _ β o _ hβ ho rfl, Option.bind_some,
      wr_pack_re B _ β o _ _ hβ ho rfl, Option.bind_some, wr_pack_im B _ β o _ _ hβ ho rfl]
    congr 1
    apply pack_congr
    intro p hp
    simp only [S]
    by_cases e : p = 4 * β + o
    · subst e
      simp [show 8 * β / 2 = 4 * β by omega]
    · rw [if_neg e, if_neg e]
      by_cases h : p < 4 * β + o
      · rw [if_pos h, if_pos (by omega)]
      · rw [if_neg h, if_neg (by omega)])
  have e0 : pack (8 * B) z = pack (8 * B) (S (4 * 0)) := by simp [S]
  rw [e0]
  rw [Nat.zero_add] at this
  rw [this]
  congr 1
  apply pack_congr
  intro p hp
  simp only [S, hp, if_true]

theorem laneLoop_pack (f : ℕ → R → R → R) (B : ℕ) (v0 v1 : Option (List R))
    (z a b : ℕ → R × R) (h0 : Opnd B z v0 a) (h1 : Opnd B z v1 b) :
    laneLoop f v0 v1 (pack (8 * B) z)
      = some (pack (8 * B) fun p => (f (lane p) (a p).1 (b p).1, f (lane p + 4) (a p).2 (b p).2)) := by
  rw [laneLoop, length_pack]
  let ln : (ℕ → R × R) → ℕ → R := fun z x =>
    if x % 8 < 4 then (z (4 * (x / 8) + x % 8)).1 else (z (4 * (x / 8) + (x % 8 - 4))).2
  let S : ℕ → List R := fun n => tab (8 * B) fun x => if x < n then f x (ln a x) (ln b x) else ln z x
  have hop : ∀ (v : Option (List R)) (c : ℕ → R × R), Opnd B z v c → ∀ x < 8 * B,
      rd (v.getD (S x)) x = some (ln c x) := by
    intro v c hv x hx
    rcases hv with ⟨rfl, hc⟩ | rfl
    · simp only [Option.getD_none, S]
      rw [rd_tab _ _ _ hx, if_neg (by omega)]
      simp only [ln]
      split_ifs <;> rw [hc _ (by omega)]
    · simp only [Option.getD_some, pack]
      rw [rd_tab _ _ _ hx]
  have e0 : pack (8 * B) z = S 0 := by simp [S, pack, ln]
  rw [e0, blockLoop_eq B (fun i out => do
      let x ← rd (v0.getD out) i
      let y ← rd (v1.getD out) i
      wr out i (f i x y)) S]
  · congr 1
    apply tab_congr
    intro x hx
    rw [if_pos hx]
    simp only [ln, lane]
    split_ifs
    · congr 1; omega
    · congr 1; omega
  · intro x hx
    simp only [Option.bind_eq_bind]
    rw [hop v0 a h0 x hx, Option.bind_some, hop v1 b h1 x hx, Option.bind_some]
    simp only [S]
    rw [wr_eq _ _ _ (by simpa using hx)]
    congr 1
    apply eq_tab_of _ _ _ (by simp)
    intro y hy
    rw [List.getElem_set]
    simp only [getElem_tab]
    by_cases h1 : x = y
    · subst h1; rw [if_pos rfl, if_pos (by omega)]
    · rw [if_neg h1]
      by_cases h2 : y < x
      · rw [if_pos h2, if_pos (by omega)]
      · rw [if_neg h2, if_neg (by omega)]

end GoTfhe
