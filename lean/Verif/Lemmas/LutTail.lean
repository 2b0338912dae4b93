import Verif.Lemmas.LutBias

/-!
# The mean of the lost bits of a look-up, over the keys and the mask of the input

The sum starts at the first step that moves, which depends on the mask. The steps before it all lie in one half of the
circle, so each step later costs a factor of two.
-/

namespace GoTfhe

open Finset

/-- The first `r` rotations lie in the half that contains `N + 1`. -/
def UpperHalf (P : Params) (c : List Torus) (r : ℕ) : Prop :=
  ∀ i < r, aTilda P.trgswLv1.NBIT (at' c i) = 0 ∨ (P.trgswLv1.N : ℤ) < aTilda P.trgswLv1.NBIT (at' c i)

/-- The first `r` rotations lie in the half that contains `1`. -/
def LowerHalf (P : Params) (c : List Torus) (r : ℕ) : Prop :=
  ∀ i < r, aTilda P.trgswLv1.NBIT (at' c i) < P.trgswLv1.N

theorem sum_upper (N : ℕ) (hN : 0 < N) :
    ∑ t ∈ range (2 * N), (if ((t : ℕ) : ℤ) = 0 ∨ (N : ℤ) < ((t : ℕ) : ℤ) then (1 : ℝ) else 0) = N := by
  rw [show 2 * N = (1 + N) + (N - 1) by omega, sum_range_add, sum_range_add]
  rw [sum_range_one, if_pos (Or.inl (by simp)), sum_eq_zero fun t ht => if_neg (by
    have := mem_range.1 ht; push_cast; omega), sum_congr rfl fun t ht => if_pos (Or.inr (by push_cast; omega))]
  rw [sum_const, card_range, nsmul_eq_mul, mul_one, Nat.cast_sub (by omega)]
  push_cast
  ring

theorem sum_lower (N : ℕ) : ∑ t ∈ range (2 * N), (if ((t : ℕ) : ℤ) < (N : ℤ) then (1 : ℝ) else 0) = N := by
  rw [show 2 * N = N + N by omega, sum_range_add, sum_congr rfl fun t ht => if_pos (by
    have := mem_range.1 ht; omega)]
  rw [sum_eq_zero (s := range N) (f := fun t => if (((N + t : ℕ) : ℤ) < (N : ℤ)) then (1 : ℝ) else 0) fun t ht => if_neg (by
    push_cast; omega)]
  simp

/-- Independent conditions of probability at most one half on the first `r` words, and a factor that does not depend on
them. -/
theorem avg_prefix {n : ℕ} (S : ℕ → Fin (2 ^ 32) → Prop) [∀ i x, Decidable (S i x)]
    (hS : ∀ i, avg (fun x => if S i x then (1 : ℝ) else 0) ≤ 1 / 2) (F : Mask n → ℝ) (h0 : ∀ a, 0 ≤ F a) (r : ℕ) (hr : r ≤ n)
    (hF : ∀ (i : Fin n), i.val < r → ∀ a x, F (Function.update a i x) = F a) :
    avg (fun a : Mask n => F a * if ∀ i : Fin n, i.val < r → S i (a i) then (1 : ℝ) else 0) ≤ (1 / 2) ^ r * avg F := by
  classical
  have main : ∀ q ≤ r, avg (fun a : Mask n => F a * if ∀ i : Fin n, i.val < q → S i (a i) then (1 : ℝ) else 0)
      ≤ (1 / 2) ^ q * avg F := by
    intro q
    induction q with
    | zero => intro _; simp
    | succ q ih =>
      intro hq
      have ih := ih (by omega)
      set iq : Fin n := ⟨q, by omega⟩
      have e : ∀ a : Mask n, (F a * if ∀ i : Fin n, i.val < q + 1 → S i (a i) then (1 : ℝ) else 0)
          = (F a * if ∀ i : Fin n, i.val < q → S i (a i) then (1 : ℝ) else 0) * if S q (a iq) then (1 : ℝ) else 0 := by
        intro a
        by_cases h1 : ∀ i : Fin n, i.val < q → S i (a i)
        · by_cases h2 : S q (a iq)
          · have h3 : ∀ i : Fin n, i.val < q + 1 → S i (a i) := by
              intro i hi
              rcases Nat.lt_succ_iff_lt_or_eq.1 hi with h | h
              · exact h1 i h
              · obtain rfl : i = iq := Fin.ext h
                exact h2
            rw [if_pos h1, if_pos h2, if_pos h3, mul_one, mul_one]
          · rw [if_neg h2, if_neg (fun h => h2 (h iq (by simp [iq])))]
            simp
        · rw [if_neg h1, if_neg (fun h => h1 fun i hi => h i (by omega))]
          simp
      simp only [e]
      have := avg_mul_update iq (fun a : Mask n => F a * if ∀ i : Fin n, i.val < q → S i (a i) then (1 : ℝ) else 0)
        (fun a => if S q (a iq) then (1 : ℝ) else 0) (fun a x => by
          rw [hF iq (by simp only [iq]; omega)]
          congr 1
          have : (∀ i : Fin n, i.val < q → S i (Function.update a iq x i)) ↔ ∀ i : Fin n, i.val < q → S i (a i) := by
            refine forall_congr' fun i => imp_congr_right fun hi => ?_
            rw [Function.update_of_ne (fun h => by rw [h] at hi; exact absurd hi (by simp [iq]))]
          simp only [this]) (fun a => mul_nonneg (h0 a) (by split_ifs <;> norm_num)) (1 / 2) (fun a _ => by
          simp only [Function.update_self]
          exact hS q)
      refine this.trans ?_
      have e2 : (1 / 2 : ℝ) ^ (q + 1) = 1 / 2 * (1 / 2) ^ q := pow_succ' _ _
      have e3 := mul_le_mul_of_nonneg_left ih (show (0 : ℝ) ≤ 1 / 2 by norm_num)
      rw [e2, mul_assoc]
      exact e3
  exact main r le_rfl

theorem lostBias_drop_congr (P : Params) (c d s0 s1 : List Torus) (r : ℕ)
    (h : ∀ i, r ≤ i → i < P.tlweLv0.N → at' c i = at' d i) :
    lostBias P c (dropKey r s0) s1 = lostBias P d (dropKey r s0) s1 := by
  rw [lostBias_dropKey, lostBias_dropKey]
  refine sum_congr rfl fun i hi => ?_
  have hi := mem_range.1 hi
  split_ifs with h1 h2 h3 h3
  · rfl
  · exact absurd (h i h1 hi ▸ h2) h3
  · exact absurd (h i h1 hi ▸ h3) h2
  · congr 2
    unfold accExp
    rw [← sum_range_add_sum_Ico _ (show i + 1 ≤ P.tlweLv0.N by omega),
      ← sum_range_add_sum_Ico (fun j => ((at' s0 j).toNat : ℤ) * aTilda P.trgswLv1.NBIT (at' d j)) (show i + 1 ≤ P.tlweLv0.N by omega)]
    have : ∑ j ∈ Ico (i + 1) P.tlweLv0.N, ((at' s0 j).toNat : ℤ) * aTilda P.trgswLv1.NBIT (at' c j)
        = ∑ j ∈ Ico (i + 1) P.tlweLv0.N, ((at' s0 j).toNat : ℤ) * aTilda P.trgswLv1.NBIT (at' d j) := by
      refine sum_congr rfl fun j hj => ?_
      have := mem_Ico.1 hj
      rw [h j (by omega) (by omega)]
    rw [this]
    ring
  · rfl

open Classical in
/-- One prefix, one sign, fixed keys. -/
theorem prefix_mgf {P : Params} (W : WellFormed P) (s0 s1 : List Torus) (hs0 : IsBinary s0) (hs1 : IsBinary s1)
    (σ : ℝ) (hσ : σ = 1 ∨ σ = -1) (r : ℕ) (hr : r ≤ P.tlweLv0.N) (up : Bool) (lam X : ℝ) (hl : 0 ≤ lam) (W1 : ℕ)
    (hw : weight P.trgswLv1.N s1 ≤ W1) (hX : lam * W1 ≤ X) (hX1 : X ≤ 1) :
    avg (fun a : Mask P.tlweLv0.N => Real.exp (lam * (σ * (lostBias P (tab P.tlweLv0.N a.draw) (dropKey r s0) s1 : ℤ)))
        * if (if up then UpperHalf P (tab P.tlweLv0.N a.draw) r else LowerHalf P (tab P.tlweLv0.N a.draw) r) then (1 : ℝ) else 0)
      ≤ (1 / 2) ^ r * (Real.exp (lam * W1)
        * (1 + (1 + 5 / 48 * X ^ 2) * lam ^ 2 / 2 * spread P.trgswLv1.N s1 + 1 / (2 * P.trgswLv1.N)) ^ weight P.tlweLv0.N s0) := by
  have hN : 0 < P.trgswLv1.N := by have := W.min_degree; omega
  have key := bias_mgf W (dropKey r s0) s1 (isBinary_dropKey r s0 hs0) hs1 σ hσ 1 (Or.inl rfl) (fun _ => 0)
    (fun a => tab P.tlweLv0.N a.draw) (fun a i hi => by rw [at'_tab _ _ _ hi]; ring) lam X hl W1 hw hX hX1
  have hsp := spread_nonneg P.trgswLv1.N s1
  have hK1 : (1 : ℝ) ≤ 1 + (1 + 5 / 48 * X ^ 2) * lam ^ 2 / 2 * spread P.trgswLv1.N s1 + 1 / (2 * P.trgswLv1.N) := by
    have h1 : 0 ≤ (1 + 5 / 48 * X ^ 2) * lam ^ 2 / 2 * spread P.trgswLv1.N s1 := by positivity
    have h2 : (0 : ℝ) ≤ 1 / (2 * P.trgswLv1.N) := by positivity
    linarith
  have key := key.trans (mul_le_mul_of_nonneg_left (pow_le_pow_right₀ hK1 (weight_dropKey P.tlweLv0.N r s0)) (Real.exp_pos _).le)
  let S : ℕ → Fin (2 ^ 32) → Prop := fun _ x => if up then
    (aTilda P.trgswLv1.NBIT (BitVec.ofFin x) = 0 ∨ (P.trgswLv1.N : ℤ) < aTilda P.trgswLv1.NBIT (BitVec.ofFin x))
    else aTilda P.trgswLv1.NBIT (BitVec.ofFin x) < P.trgswLv1.N
  have hS : ∀ i, avg (fun x => if S i x then (1 : ℝ) else 0) ≤ 1 / 2 := by
    intro i
    have hU : ∀ f : ℤ → ℝ, avg (fun x : Fin (2 ^ 32) => f (aTilda P.trgswLv1.NBIT (BitVec.ofFin x)))
        = (∑ t ∈ range (2 * P.trgswLv1.N), f t) / (2 * P.trgswLv1.N) := by
      intro f
      have := avg_aTilda P.trgswLv1.NBIT W.nbit_le 1 (Or.inl rfl) 0 f
      rw [← W.pow2] at this
      simpa using this
    have hN' : (0 : ℝ) < P.trgswLv1.N := by exact_mod_cast hN
    have half : (P.trgswLv1.N : ℝ) / (2 * P.trgswLv1.N) = 1 / 2 := by field_simp
    cases up
    · have := hU fun t => if t < (P.trgswLv1.N : ℤ) then 1 else 0
      rw [sum_lower, half] at this
      exact le_of_eq (by simpa [S] using this)
    · have := hU fun t => if t = 0 ∨ (P.trgswLv1.N : ℤ) < t then 1 else 0
      rw [sum_upper _ hN, half] at this
      refine le_of_eq ?_
      rw [← this]
      simp [S]
  have main := avg_prefix S hS (fun a : Mask P.tlweLv0.N =>
    Real.exp (lam * (σ * (lostBias P (tab P.tlweLv0.N a.draw) (dropKey r s0) s1 : ℤ)))) (fun _ => (Real.exp_pos _).le) r hr
    (fun i hi a x => by
      rw [lostBias_drop_congr P _ (tab P.tlweLv0.N (Mask.draw a))]
      intro j hj hjn
      rw [at'_tab _ _ _ hjn, at'_tab _ _ _ hjn]
      unfold Mask.draw
      rw [dif_pos hjn, dif_pos hjn, Function.update_of_ne]
      intro h
      rw [← h] at hi
      simp only at hi
      omega)
  refine le_trans (le_of_eq (congrArg avg (funext fun a => ?_))) (main.trans (mul_le_mul_of_nonneg_left key (by positivity)))
  congr 1
  have : (if up then UpperHalf P (tab P.tlweLv0.N a.draw) r else LowerHalf P (tab P.tlweLv0.N a.draw) r)
      ↔ ∀ i : Fin P.tlweLv0.N, i.val < r → S i (a i) := by
    have hd : ∀ i : Fin P.tlweLv0.N, at' (tab P.tlweLv0.N a.draw) i = BitVec.ofFin (a i) := by
      intro i
      rw [at'_tab _ _ _ i.isLt]
      unfold Mask.draw
      rw [dif_pos i.isLt]
    cases up
    · simp only [Bool.false_eq_true, if_false, S]
      refine ⟨fun h i hi => ?_, fun h i hi => ?_⟩
      · rw [← hd]; exact h i hi
      · have := h ⟨i, by omega⟩ hi
        rw [← hd] at this
        exact this
    · simp only [if_true, S]
      refine ⟨fun h i hi => ?_, fun h i hi => ?_⟩
      · rw [← hd]; exact h i hi
      · have := h ⟨i, by omega⟩ hi
        rw [← hd] at this
        exact this
  simp only [this]

open Classical in
/-- The mean of the lost bits of a look-up, over uniform keys and the uniform mask of the input: four times the bound for a
gate. -/
theorem lut_bias_tail {P : Params} (W : WellFormed P) (lam X η : ℝ) (hl : 0 ≤ lam) (W1 : ℕ) (hX : lam * W1 ≤ X) (hX1 : X ≤ 1)
    (hη : 0 < η) (hs : 2 * (1 + 1 / η) * P.trgswLv1.N * (P.tlweLv0.N * (1 + 5 / 48 * X ^ 2) * lam ^ 2 / 4 / 4) < 1) (B : ℝ) :
    avg (fun b0 : Fin P.tlweLv0.N → Bool => avg fun b1 : Fin P.trgswLv1.N → Bool => avg fun a : Mask P.tlweLv0.N =>
        if weight P.trgswLv1.N (keyOf b1) ≤ W1 ∧ ∃ r < P.tlweLv0.N, (UpperHalf P (tab P.tlweLv0.N a.draw) r ∨
            LowerHalf P (tab P.tlweLv0.N a.draw) r) ∧
          B ≤ |((lostBias P (tab P.tlweLv0.N a.draw) (dropKey r (keyOf b0)) (keyOf b1) : ℤ) : ℝ)| then (1 : ℝ) else 0)
      ≤ 8 * Real.exp (-(lam * B) + lam * W1 + biasExp P.tlweLv0.N P.trgswLv1.N lam X η) := by
  set K : (Fin P.trgswLv1.N → Bool) → ℝ := fun b1 => 1 + (1 + 5 / 48 * X ^ 2) * lam ^ 2 / 2 * spread P.trgswLv1.N (keyOf b1)
    + 1 / (2 * P.trgswLv1.N) with hK
  have hK1 : ∀ b1, 0 ≤ K b1 := by
    intro b1
    have := spread_nonneg P.trgswLv1.N (keyOf b1)
    rw [hK]
    positivity
  have two : ∀ (b0 : Fin P.tlweLv0.N → Bool) (b1 : Fin P.trgswLv1.N → Bool), avg (fun a : Mask P.tlweLv0.N =>
        if weight P.trgswLv1.N (keyOf b1) ≤ W1 ∧ ∃ r < P.tlweLv0.N, (UpperHalf P (tab P.tlweLv0.N a.draw) r ∨
            LowerHalf P (tab P.tlweLv0.N a.draw) r) ∧
          B ≤ |((lostBias P (tab P.tlweLv0.N a.draw) (dropKey r (keyOf b0)) (keyOf b1) : ℤ) : ℝ)| then (1 : ℝ) else 0)
      ≤ 8 * (Real.exp (-(lam * B) + lam * W1) * K b1 ^ ∑ i, (b0 i).toNat) := by
    intro b0 b1
    have hpos : 0 ≤ Real.exp (-(lam * B) + lam * W1) * K b1 ^ ∑ i, (b0 i).toNat :=
      mul_nonneg (Real.exp_pos _).le (pow_nonneg (hK1 b1) _)
    by_cases hw : weight P.trgswLv1.N (keyOf b1) ≤ W1
    swap
    · rw [show (fun a : Mask P.tlweLv0.N => if weight P.trgswLv1.N (keyOf b1) ≤ W1 ∧ _ then (1 : ℝ) else 0) = fun _ => 0 from
        funext fun a => if_neg fun h => hw h.1, avg_mask]
      linarith
    let G : ℕ → Bool → ℝ → Mask P.tlweLv0.N → ℝ := fun r up σ a =>
      Real.exp (-(lam * B)) * (Real.exp (lam * (σ * (lostBias P (tab P.tlweLv0.N a.draw) (dropKey r (keyOf b0)) (keyOf b1) : ℤ)))
        * if (if up then UpperHalf P (tab P.tlweLv0.N a.draw) r else LowerHalf P (tab P.tlweLv0.N a.draw) r) then (1 : ℝ) else 0)
    have hG0 : ∀ r up σ a, 0 ≤ G r up σ a := fun r up σ a =>
      mul_nonneg (Real.exp_pos _).le (mul_nonneg (Real.exp_pos _).le (by split_ifs <;> norm_num))
    have hG1 : ∀ r up σ a, (if up then UpperHalf P (tab P.tlweLv0.N a.draw) r else LowerHalf P (tab P.tlweLv0.N a.draw) r) →
        B ≤ σ * ((lostBias P (tab P.tlweLv0.N a.draw) (dropKey r (keyOf b0)) (keyOf b1) : ℤ) : ℝ) → 1 ≤ G r up σ a := by
      intro r up σ a h1 h2
      simp only [G]
      rw [if_pos h1, mul_one, ← Real.exp_add]
      refine Real.one_le_exp ?_
      have := mul_le_mul_of_nonneg_left h2 hl
      linarith
    have hG2 : ∀ r < P.tlweLv0.N, ∀ up σ, σ = 1 ∨ σ = -1 → avg (G r up σ)
        ≤ (1 / 2) ^ r * (Real.exp (-(lam * B) + lam * W1) * K b1 ^ ∑ i, (b0 i).toNat) := by
      intro r hr up σ hσ
      have := prefix_mgf W (keyOf b0) (keyOf b1) (isBinary_keyOf _) (isBinary_keyOf _) σ hσ r hr.le up lam X hl W1 hw hX hX1
      rw [weight_keyOf] at this
      simp only [G]
      rw [avg_mul_left, Real.exp_add]
      refine (mul_le_mul_of_nonneg_left this (Real.exp_pos _).le).trans (le_of_eq ?_)
      rw [hK]
      ring
    refine le_trans (avg_mono (g := fun a => ∑ r ∈ range P.tlweLv0.N,
      (G r true 1 a + G r true (-1) a + (G r false 1 a + G r false (-1) a))) fun a => ?_) ?_
    · split_ifs with h
      swap
      · exact sum_nonneg fun r _ => add_nonneg (add_nonneg (hG0 _ _ _ _) (hG0 _ _ _ _)) (add_nonneg (hG0 _ _ _ _) (hG0 _ _ _ _))
      obtain ⟨-, r, hr, hp, hB⟩ := h
      refine le_trans ?_ (single_le_sum (f := fun r => G r true 1 a + G r true (-1) a + (G r false 1 a + G r false (-1) a))
        (fun r _ => add_nonneg (add_nonneg (hG0 _ _ _ _) (hG0 _ _ _ _)) (add_nonneg (hG0 _ _ _ _) (hG0 _ _ _ _)))
        (mem_range.2 hr))
      have a1 := hG0 r true 1 a
      have a2 := hG0 r true (-1) a
      have a3 := hG0 r false 1 a
      have a4 := hG0 r false (-1) a
      rcases hp with hp | hp <;> rcases le_abs.1 hB with h | h
      · have := hG1 r true 1 a (by simpa using hp) (by linarith)
        linarith
      · have := hG1 r true (-1) a (by simpa using hp) (by linarith)
        linarith
      · have := hG1 r false 1 a (by simpa using hp) (by linarith)
        linarith
      · have := hG1 r false (-1) a (by simpa using hp) (by linarith)
        linarith
    · rw [avg_sum]
      set C := Real.exp (-(lam * B) + lam * W1) * K b1 ^ ∑ i, (b0 i).toNat with hC
      have h4 : ∀ r ∈ range P.tlweLv0.N, avg (fun a => G r true 1 a + G r true (-1) a + (G r false 1 a + G r false (-1) a))
          ≤ (1 / 2) ^ r * (4 * C) := by
        intro r hr
        have hr := mem_range.1 hr
        have e : avg (fun a => G r true 1 a + G r true (-1) a + (G r false 1 a + G r false (-1) a))
            = avg (G r true 1) + avg (G r true (-1)) + (avg (G r false 1) + avg (G r false (-1))) := by
          rw [avg_add, avg_add, avg_add]
        rw [e, show (1 / 2 : ℝ) ^ r * (4 * C) = 4 * ((1 / 2) ^ r * C) by ring]
        have b1 := hG2 r hr true 1 (Or.inl rfl)
        have b2 := hG2 r hr true (-1) (Or.inr rfl)
        have b3 := hG2 r hr false 1 (Or.inl rfl)
        have b4 := hG2 r hr false (-1) (Or.inr rfl)
        linarith
      refine (sum_le_sum h4).trans ?_
      rw [← sum_mul]
      have h5 : ∑ r ∈ range P.tlweLv0.N, (1 / 2 : ℝ) ^ r ≤ 2 := by
        rw [geom_sum_eq (by norm_num)]
        have : (0 : ℝ) ≤ (1 / 2) ^ P.tlweLv0.N := by positivity
        generalize (1 / 2 : ℝ) ^ P.tlweLv0.N = z at *
        rw [div_le_iff_of_neg (by norm_num)]
        linarith
      have := mul_le_mul_of_nonneg_right h5 (show 0 ≤ 4 * C by linarith)
      linarith
  refine (avg_mono fun b0 => avg_mono fun b1 => two b0 b1).trans ?_
  simp only [avg_mul_left]
  have six := bias_keys W lam X η hη hs
  have seven := mul_le_mul_of_nonneg_left six (Real.exp_pos (-(lam * B) + lam * W1)).le
  rw [← Real.exp_add] at seven
  exact mul_le_mul_of_nonneg_left seven (by norm_num)

end GoTfhe
