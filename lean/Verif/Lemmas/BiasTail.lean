import Verif.Lemmas.LostBias
import Verif.Props.Hiding

/-!
# The mean of the lost bits, over the keys and the mask of an input
-/

namespace GoTfhe

open Finset

/-- The rounded exponent of a uniform word is uniform. -/
theorem avg_aTilda (n : ℕ) (hn : n ≤ 30) (p : Torus) (hp : p = 1 ∨ p = -1) (y : Torus) (f : ℤ → ℝ) :
    avg (fun x : Fin (2 ^ 32) => f (aTilda n (p * BitVec.ofFin x + y)))
      = (∑ t ∈ range (2 * 2 ^ n), f t) / (2 * (2 ^ n : ℕ)) := by
  have hpp : p * p = 1 := by rcases hp with rfl | rfl <;> decide
  set h : Torus := 1#32 <<< (31 - n - 1)
  let e : Fin (2 ^ 32) ≃ Torus :=
    { toFun := fun x => p * BitVec.ofFin x + y + h
      invFun := fun z => (p * (z - h - y)).toFin
      left_inv := fun x => by
        show (p * (p * BitVec.ofFin x + y + h - h - y)).toFin = x
        rw [show p * (p * BitVec.ofFin x + y + h - h - y) = p * p * BitVec.ofFin x by ring, hpp, one_mul]
      right_inv := fun z => by
        show p * BitVec.ofFin (p * (z - h - y)).toFin + y + h = z
        rw [BitVec.ofFin_toFin, ← mul_assoc, hpp, one_mul]
        ring }
  have e1 : avg (fun x : Fin (2 ^ 32) => f (aTilda n (p * BitVec.ofFin x + y)))
      = avg (fun z : Torus => f ((z >>> (32 - n - 1)).toNat : ℕ)) := avg_equiv e fun z => f ((z >>> (32 - n - 1)).toNat : ℕ)
  have e2 : avg (fun z : Torus => f ((z >>> (32 - n - 1)).toNat : ℕ))
      = avg (fun z : Fin (2 ^ 32) => f ((z.val / 2 ^ (31 - n) : ℕ) : ℤ)) := by
    have := avg_equiv (BitVec.equivFin (m := 32)).toEquiv.symm fun z : Torus => f ((z >>> (32 - n - 1)).toNat : ℕ)
    rw [← this]
    congr 1
    funext z
    congr 2
    rw [BitVec.toNat_ushiftRight, Nat.shiftRight_eq_div_pow, show 32 - n - 1 = 31 - n by omega]
    rfl
  have hm : 2 ^ (n + 1) * 2 ^ (31 - n) = 2 ^ 32 := by rw [← pow_add]; congr 1; omega
  have e3 : avg (fun z : Fin (2 ^ 32) => f ((z.val / 2 ^ (31 - n) : ℕ) : ℤ))
      = avg (fun t : Fin (2 ^ (n + 1)) => f ((t.val : ℕ) : ℤ)) := by
    have := avg_equiv ((finProdFinEquiv (m := 2 ^ (n + 1)) (n := 2 ^ (31 - n))).trans (finCongr hm))
      fun z : Fin (2 ^ 32) => f ((z.val / 2 ^ (31 - n) : ℕ) : ℤ)
    rw [← this, avg_prod]
    congr 1
    funext t
    rw [show (fun y : Fin (2 ^ (31 - n)) => f (((((finProdFinEquiv (m := 2 ^ (n + 1)) (n := 2 ^ (31 - n))).trans
      (finCongr hm)) (t, y)).val / 2 ^ (31 - n) : ℕ) : ℤ)) = fun _ => f ((t.val : ℕ) : ℤ) from ?_, avg_const]
    funext y
    congr 2
    show (y.val + 2 ^ (31 - n) * t.val) / 2 ^ (31 - n) = t.val
    rw [Nat.add_mul_div_left _ _ (by positivity), Nat.div_eq_of_lt y.isLt, zero_add]
  rw [e1, e2, e3]
  unfold avg
  rw [Fin.sum_univ_eq_sum_range (fun t : ℕ => f (t : ℤ)), Fintype.card_fin, pow_succ, mul_comm (2 ^ n) 2]
  push_cast
  rfl

theorem lostBias_walk (P : Params) (c s0 s1 : List Torus) :
    ((lostBias P c s0 s1 : ℤ) : ℝ) = walkSum (fun i => (at' s0 i).toNat) (fun e => ((wave P.trgswLv1.N s1 e : ℤ) : ℝ))
      (fun i => aTilda P.trgswLv1.NBIT (at' c i)) P.tlweLv0.N 0 := by
  rw [walkSum_eq]
  unfold lostBias
  push_cast
  refine sum_congr rfl fun i hi => ?_
  have hi := mem_range.1 hi
  congr 1
  split_ifs
  · simp
  · congr 2
    unfold accExp
    rw [zero_add, ← sum_range_add_sum_Ico _ (show i + 1 ≤ P.tlweLv0.N by omega)]
    ring

theorem lostBias_congr (P : Params) (c d s0 s1 : List Torus) (h : ∀ i < P.tlweLv0.N, at' c i = at' d i) :
    lostBias P c s0 s1 = lostBias P d s0 s1 := by
  have := (lostBias_walk P c s0 s1).trans ((walkSum_congr _ _ _ _ _ 0 fun i hi => by rw [h i hi]).trans
    (lostBias_walk P d s0 s1).symm)
  exact_mod_cast this

/-- The exponential moment of the mean over the mask of an input, for fixed keys. -/
theorem bias_mgf {P : Params} (W : WellFormed P) (s0 s1 : List Torus) (hs0 : IsBinary s0) (hs1 : IsBinary s1)
    (σ : ℝ) (hσ : σ = 1 ∨ σ = -1) (p : Torus) (hp : p = 1 ∨ p = -1) (y : ℕ → Torus) (c : Mask P.tlweLv0.N → List Torus)
    (hc : ∀ a, ∀ i < P.tlweLv0.N, at' (c a) i = p * a.draw i + y i) (lam X : ℝ) (hl : 0 ≤ lam) (W1 : ℕ)
    (hw : weight P.trgswLv1.N s1 ≤ W1) (hX : lam * W1 ≤ X) (hX1 : X ≤ 1) :
    avg (fun a : Mask P.tlweLv0.N => Real.exp (lam * (σ * (lostBias P (c a) s0 s1 : ℤ))))
      ≤ Real.exp (lam * W1) * (1 + (1 + 5 / 48 * X ^ 2) * lam ^ 2 / 2 * spread P.trgswLv1.N s1 + 1 / (2 * P.trgswLv1.N))
        ^ weight P.tlweLv0.N s0 := by
  have hN : 0 < P.trgswLv1.N := by have := W.min_degree; omega
  have hU : ∀ i < P.tlweLv0.N, ∀ f : ℤ → ℝ, avg (fun x : Fin (2 ^ 32) => f (aTilda P.trgswLv1.NBIT (p * BitVec.ofFin x + y i)))
      = (∑ t ∈ range (2 * P.trgswLv1.N), f t) / (2 * P.trgswLv1.N) := by
    intro i _ f
    rw [avg_aTilda _ W.nbit_le p hp, ← W.pow2]
  have hsp := spread_nonneg P.trgswLv1.N s1
  have hσ1 : |σ| = 1 := by rcases hσ with h | h <;> rw [h] <;> norm_num
  have hwX : lam * weight P.trgswLv1.N s1 ≤ X := by
    refine le_trans (mul_le_mul_of_nonneg_left ?_ hl) hX
    exact_mod_cast hw
  have key := (walk_mgf (n := P.tlweLv0.N) P.trgswLv1.N hN
    (fun i (x : Fin (2 ^ 32)) => aTilda P.trgswLv1.NBIT (p * BitVec.ofFin x + y i)) hU
    (fun i => (at' s0 i).toNat) (fun i => by rcases isBinary_at' hs0 i with h | h <;> rw [h] <;> decide)
    (fun e => σ * ((wave P.trgswLv1.N s1 e : ℤ) : ℝ)) (fun e => by rw [wave_per P.trgswLv1.N hN s1 hs1])
    (W1 : ℝ) (Nat.cast_nonneg _) (fun e => by
      refine (le_abs_self _).trans ?_
      rw [abs_mul, hσ1, one_mul]
      have := (abs_wave_le P.trgswLv1.N hN s1 hs1 e).trans (Int.ofNat_le.2 hw)
      exact_mod_cast this) lam hl
    (1 + (1 + 5 / 48 * X ^ 2) * lam ^ 2 / 2 * spread P.trgswLv1.N s1)
    (le_add_of_nonneg_right (by positivity)) (wave_mgf P.trgswLv1.N hN s1 hs1 σ hσ lam X hl hwX hX1) P.tlweLv0.N le_rfl).1 0
  refine le_trans (le_of_eq (congrArg avg (funext fun a => ?_))) key
  congr 2
  have e1 : ∀ (g : ℕ → ℤ) (m : ℕ) (e : ℤ), walkSum (fun i => (at' s0 i).toNat) (fun e => σ * ((wave P.trgswLv1.N s1 e : ℤ) : ℝ)) g m e
      = σ * walkSum (fun i => (at' s0 i).toNat) (fun e => ((wave P.trgswLv1.N s1 e : ℤ) : ℝ)) g m e := by
    intro g m e
    rw [walkSum_eq, walkSum_eq, mul_sum]
    refine sum_congr rfl fun i _ => ?_
    split_ifs <;> ring
  rw [lostBias_walk, e1]
  congr 1
  refine walkSum_congr _ _ _ _ _ _ fun i hi => ?_
  unfold walkSteps
  rw [dif_pos hi, hc a i hi]
  unfold Mask.draw
  rw [dif_pos hi]

theorem isBinary_keyOf {n : ℕ} (s : Fin n → Bool) : IsBinary (keyOf s) := by
  unfold keyOf
  intro x hx
  obtain ⟨i, -, rfl⟩ := List.mem_map.1 hx
  split_ifs
  · exact Or.inr rfl
  · exact Or.inl rfl

theorem at'_keyOf {n : ℕ} (s : Fin n → Bool) (i : Fin n) : (at' (keyOf s) i).toNat = (s i).toNat := by
  unfold keyOf
  rw [at'_tab _ _ _ i.isLt]
  unfold keyCoins
  rw [dif_pos i.isLt]
  cases s i <;> rfl

theorem weight_keyOf {n : ℕ} (s : Fin n → Bool) : weight n (keyOf s) = ∑ i, (s i).toNat := by
  unfold weight
  rw [← Fin.sum_univ_eq_sum_range (fun i => (at' (keyOf s) i).toNat)]
  exact sum_congr rfl fun i _ => at'_keyOf s i

theorem avg_pow_weight (n : ℕ) (K : ℝ) (hK : -1 ≤ K) :
    avg (fun s : Fin n → Bool => K ^ ∑ i, (s i).toNat) ≤ Real.exp (n * ((K - 1) / 2)) := by
  have : avg (fun s : Fin n → Bool => K ^ ∑ i, (s i).toNat) = ((1 + K) / 2) ^ n := by
    induction n with
    | zero => simp [avg]
    | succ n ih =>
      rw [avg_cons]
      simp only [Fin.sum_univ_succ, Fin.cons_zero, Fin.cons_succ]
      have : ∀ r : Fin n → Bool, avg (fun b : Bool => K ^ (b.toNat + ∑ i, (r i).toNat))
          = (1 + K) / 2 * K ^ ∑ i, (r i).toNat := by
        intro r
        rw [avg_bool, pow_add, pow_add]
        simp only [Bool.toNat_true, Bool.toNat_false, pow_one, pow_zero]
        ring
      simp only [this]
      rw [avg_mul_left, ih, pow_succ]
      ring
  rw [this, Real.exp_nat_mul]
  refine pow_le_pow_left₀ (by linarith) ?_ n
  have := Real.add_one_le_exp ((K - 1) / 2)
  linarith

/-- The exponent of the tail of the mean of the lost bits. -/
noncomputable def biasExp (n0 N : ℕ) (lam X η : ℝ) : ℝ :=
  let c := n0 * (1 + 5 / 48 * X ^ 2) * lam ^ 2 / 4
  n0 / (4 * N) + (c * (N ^ 2 / 12 + 1 / 6) + ((1 + η) / 2 * (N * (c ^ 2 * (N ^ 2 / 12 + 1 / 6)))
        + N * (c / 4) / (1 - 2 * (1 + 1 / η) * N * (c / 4))))

/-- The average over uniform keys of the bound on the exponential moment. -/
theorem bias_keys {P : Params} (W : WellFormed P) (lam X η : ℝ) (hη : 0 < η)
    (hs : 2 * (1 + 1 / η) * P.trgswLv1.N * (P.tlweLv0.N * (1 + 5 / 48 * X ^ 2) * lam ^ 2 / 4 / 4) < 1) :
    avg (fun b0 : Fin P.tlweLv0.N → Bool => avg fun b1 : Fin P.trgswLv1.N → Bool =>
        (1 + (1 + 5 / 48 * X ^ 2) * lam ^ 2 / 2 * spread P.trgswLv1.N (keyOf b1) + 1 / (2 * P.trgswLv1.N)) ^ ∑ i, (b0 i).toNat)
      ≤ Real.exp (biasExp P.tlweLv0.N P.trgswLv1.N lam X η) := by
  have hN : 0 < P.trgswLv1.N := by have := W.min_degree; omega
  set g : ℝ := 1 + 5 / 48 * X ^ 2 with hg
  have hg0 : 0 ≤ g := by positivity
  set K : (Fin P.trgswLv1.N → Bool) → ℝ := fun b1 => 1 + g * lam ^ 2 / 2 * spread P.trgswLv1.N (keyOf b1)
    + 1 / (2 * P.trgswLv1.N) with hK
  have hK1 : ∀ b1, 1 ≤ K b1 := by
    intro b1
    have := spread_nonneg P.trgswLv1.N (keyOf b1)
    have h1 : 0 ≤ g * lam ^ 2 / 2 * spread P.trgswLv1.N (keyOf b1) := by positivity
    have h2 : (0 : ℝ) ≤ 1 / (2 * P.trgswLv1.N) := by positivity
    rw [hK]
    linarith
  rw [avg_swap]
  have three : ∀ b1, avg (fun b0 : Fin P.tlweLv0.N → Bool => K b1 ^ ∑ i, (b0 i).toNat)
      ≤ Real.exp (P.tlweLv0.N / (4 * P.trgswLv1.N)) * Real.exp (P.tlweLv0.N * g * lam ^ 2 / 4 * spread P.trgswLv1.N (keyOf b1)) := by
    intro b1
    refine (avg_pow_weight _ _ (by linarith [hK1 b1])).trans (le_of_eq ?_)
    rw [← Real.exp_add]
    congr 1
    rw [hK]
    field_simp
    ring
  have four := spread_mgf P.trgswLv1.N hN keyOf isBinary_keyOf (fun b j => at'_keyOf b j) (P.tlweLv0.N * g * lam ^ 2 / 4) η
    (by positivity) hη hs
  have five := avg_mono three
  rw [avg_mul_left] at five
  have six := five.trans (mul_le_mul_of_nonneg_left four (Real.exp_pos _).le)
  rw [← Real.exp_add] at six
  exact six

open Classical in
/-- The mean of the lost bits, over uniform keys and the uniform mask of an input. -/
theorem bias_tail {P : Params} (W : WellFormed P) (p : Torus) (hp : p = 1 ∨ p = -1) (y : ℕ → Torus)
    (c : Mask P.tlweLv0.N → List Torus) (hc : ∀ a, ∀ i < P.tlweLv0.N, at' (c a) i = p * a.draw i + y i)
    (lam X η : ℝ) (hl : 0 ≤ lam) (W1 : ℕ) (hX : lam * W1 ≤ X) (hX1 : X ≤ 1) (hη : 0 < η)
    (hs : 2 * (1 + 1 / η) * P.trgswLv1.N * (P.tlweLv0.N * (1 + 5 / 48 * X ^ 2) * lam ^ 2 / 4 / 4) < 1) (B : ℝ) :
    avg (fun b0 : Fin P.tlweLv0.N → Bool => avg fun b1 : Fin P.trgswLv1.N → Bool => avg fun a : Mask P.tlweLv0.N =>
        if weight P.trgswLv1.N (keyOf b1) ≤ W1 ∧ B ≤ |((lostBias P (c a) (keyOf b0) (keyOf b1) : ℤ) : ℝ)| then (1 : ℝ) else 0)
      ≤ 2 * Real.exp (-(lam * B) + lam * W1 + biasExp P.tlweLv0.N P.trgswLv1.N lam X η) := by
  have hN : 0 < P.trgswLv1.N := by have := W.min_degree; omega
  set g : ℝ := 1 + 5 / 48 * X ^ 2 with hg
  have hg0 : 0 ≤ g := by positivity
  set K : (Fin P.trgswLv1.N → Bool) → ℝ := fun b1 => 1 + g * lam ^ 2 / 2 * spread P.trgswLv1.N (keyOf b1)
    + 1 / (2 * P.trgswLv1.N) with hK
  have hK1 : ∀ b1, 1 ≤ K b1 := by
    intro b1
    have := spread_nonneg P.trgswLv1.N (keyOf b1)
    have h1 : 0 ≤ g * lam ^ 2 / 2 * spread P.trgswLv1.N (keyOf b1) := by positivity
    have h2 : (0 : ℝ) ≤ 1 / (2 * P.trgswLv1.N) := by positivity
    rw [hK]
    linarith
  -- one sign
  have one : ∀ (σ : ℝ), σ = 1 ∨ σ = -1 → ∀ (b0 : Fin P.tlweLv0.N → Bool) (b1 : Fin P.trgswLv1.N → Bool), weight P.trgswLv1.N (keyOf b1) ≤ W1 →
      avg (fun a : Mask P.tlweLv0.N => if B ≤ σ * ((lostBias P (c a) (keyOf b0) (keyOf b1) : ℤ) : ℝ) then (1 : ℝ) else 0)
        ≤ Real.exp (-(lam * B) + lam * W1) * K b1 ^ ∑ i, (b0 i).toNat := by
    intro σ hσ b0 b1 hw
    have key := bias_mgf W (keyOf b0) (keyOf b1) (isBinary_keyOf _) (isBinary_keyOf _) σ hσ p hp y c hc lam X hl W1 hw hX hX1
    rw [weight_keyOf] at key
    rw [Real.exp_add, mul_assoc]
    refine le_trans ?_ (mul_le_mul_of_nonneg_left key (Real.exp_pos _).le)
    rw [← avg_mul_left]
    refine avg_mono fun a => ?_
    rw [← Real.exp_add]
    split_ifs with h
    · refine Real.one_le_exp ?_
      have := mul_le_mul_of_nonneg_left h hl
      linarith
    · exact (Real.exp_pos _).le
  have two : ∀ (b0 : Fin P.tlweLv0.N → Bool) (b1 : Fin P.trgswLv1.N → Bool), avg (fun a : Mask P.tlweLv0.N =>
        if weight P.trgswLv1.N (keyOf b1) ≤ W1 ∧ B ≤ |((lostBias P (c a) (keyOf b0) (keyOf b1) : ℤ) : ℝ)| then (1 : ℝ) else 0)
      ≤ 2 * (Real.exp (-(lam * B) + lam * W1) * K b1 ^ ∑ i, (b0 i).toNat) := by
    intro b0 b1
    have hpos : 0 ≤ Real.exp (-(lam * B) + lam * W1) * K b1 ^ ∑ i, (b0 i).toNat :=
      mul_nonneg (Real.exp_pos _).le (pow_nonneg (by linarith [hK1 b1]) _)
    by_cases hw : weight P.trgswLv1.N (keyOf b1) ≤ W1
    · have h1 := one 1 (Or.inl rfl) b0 b1 hw
      have h2 := one (-1) (Or.inr rfl) b0 b1 hw
      refine le_trans (avg_mono (g := fun a => (if B ≤ 1 * ((lostBias P (c a) (keyOf b0) (keyOf b1) : ℤ) : ℝ) then (1 : ℝ) else 0)
        + (if B ≤ -1 * ((lostBias P (c a) (keyOf b0) (keyOf b1) : ℤ) : ℝ) then (1 : ℝ) else 0)) fun a => ?_) ?_
      · have n1 : ∀ p : Prop, (0 : ℝ) ≤ if p then 1 else 0 := fun p => by split_ifs <;> norm_num
        by_cases h : B ≤ |((lostBias P (c a) (keyOf b0) (keyOf b1) : ℤ) : ℝ)|
        · rw [if_pos ⟨hw, h⟩, one_mul, neg_one_mul]
          rcases le_abs.1 h with h | h
          · rw [if_pos h]
            linarith [n1 (B ≤ -((lostBias P (c a) (keyOf b0) (keyOf b1) : ℤ) : ℝ))]
          · rw [if_pos h]
            linarith [n1 (B ≤ ((lostBias P (c a) (keyOf b0) (keyOf b1) : ℤ) : ℝ))]
        · rw [if_neg fun h' => h h'.2]
          exact add_nonneg (n1 _) (n1 _)
      · rw [avg_add]
        linarith
    · rw [show (fun a : Mask P.tlweLv0.N => if weight P.trgswLv1.N (keyOf b1) ≤ W1 ∧
        B ≤ |((lostBias P (c a) (keyOf b0) (keyOf b1) : ℤ) : ℝ)| then (1 : ℝ) else 0) = fun _ => 0 from
        funext fun a => if_neg fun h => hw h.1, avg_const]
      linarith
  refine (avg_mono fun b0 => avg_mono fun b1 => two b0 b1).trans ?_
  simp only [avg_mul_left]
  have six := bias_keys W lam X η hη hs
  have seven := mul_le_mul_of_nonneg_left six (Real.exp_pos (-(lam * B) + lam * W1)).le
  rw [← Real.exp_add] at seven
  exact mul_le_mul_of_nonneg_left seven (by norm_num)

end GoTfhe
