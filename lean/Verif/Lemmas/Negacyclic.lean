import Verif.Lemmas.Rotate
import Verif.Lemmas.Torus
import Mathlib.Algebra.BigOperators.Ring.Finset
import Mathlib.Algebra.BigOperators.Intervals
import Mathlib.Tactic.Ring
import Mathlib.Algebra.Order.BigOperators.Group.Finset

/-! # Arithmetic modulo `X^N + 1` -/

namespace GoTfhe

theorem ext_of_lt (N : ℕ) (f : ℕ → Torus) (i : ℕ) (h : i < N) : ext N f i = f i :=
  extG_of_lt _ N f i h

theorem ext_add_N (N : ℕ) (hN : 0 < N) (f : ℕ → Torus) (z : ℤ) : ext N f (z + N) = -ext N f z :=
  extG_add_N _ neg_neg N hN f z

theorem ext_sub_N (N : ℕ) (hN : 0 < N) (f : ℕ → Torus) (z : ℤ) : ext N f (z - N) = -ext N f z :=
  extG_sub_N _ neg_neg N hN f z

theorem ext_add_two_mul (N : ℕ) (hN : 0 < N) (f : ℕ → Torus) (z q : ℤ) :
    ext N f (z + 2 * N * q) = ext N f z :=
  extG_add_two_mul _ neg_neg N hN f z q

theorem ext_congr (N : ℕ) (hN : 0 < N) (f g : ℕ → Torus) (h : ∀ i < N, f i = g i) (z : ℤ) :
    ext N f z = ext N g z := extG_congr _ N hN f g h z

theorem ext_shift (N : ℕ) (hN : 0 < N) (f : ℕ → Torus) (z k : ℤ) :
    ext N (fun i => ext N f (i - k)) z = ext N f (z - k) :=
  extG_shift _ neg_neg N hN f z k

theorem ext_add (N : ℕ) (f g : ℕ → Torus) (z : ℤ) :
    ext N (fun i => f i + g i) z = ext N f z + ext N g z := by
  unfold ext extG; split_ifs <;> ring

theorem ext_sub (N : ℕ) (f g : ℕ → Torus) (z : ℤ) :
    ext N (fun i => f i - g i) z = ext N f z - ext N g z := by
  unfold ext extG; split_ifs <;> ring

theorem ext_smul (N : ℕ) (c : Torus) (f : ℕ → Torus) (z : ℤ) :
    ext N (fun i => c * f i) z = c * ext N f z := by
  unfold ext extG; split_ifs <;> ring

theorem ext_sum {ι : Type*} (N : ℕ) (S : Finset ι) (f : ι → ℕ → Torus) (z : ℤ) :
    ext N (fun i => ∑ j ∈ S, f j i) z = ∑ j ∈ S, ext N (f j) z := by
  unfold ext extG; split_ifs
  · rfl
  · rw [Finset.sum_neg_distrib]

theorem nrm_ext (N : ℕ) (hN : 0 < N) (f : ℕ → Torus) (B : ℕ) (h : ∀ i < N, nrm (f i) ≤ B) (z : ℤ) :
    nrm (ext N f z) ≤ B := by
  have h1 : (z % N).toNat < N := by
    have := Int.emod_nonneg z (show (N : ℤ) ≠ 0 by omega)
    have := Int.emod_lt_of_pos z (show (0 : ℤ) < N by omega)
    omega
  unfold ext extG; split_ifs
  · exact h _ h1
  · rw [nrm_neg]; exact h _ h1

/-- The product through the antiperiodic extension. -/
theorem negMul_eq (N : ℕ) (a b : ℕ → Torus) (k : ℕ) (hk : k < N) :
    negMul N a b k = ∑ j ∈ Finset.range N, a j * ext N b (k - j) := by
  have hN : 0 < N := by omega
  unfold negMul
  apply Finset.sum_congr rfl
  intro i hi
  have := Finset.mem_range.1 hi
  split_ifs with h
  · rw [← Nat.cast_sub h, ext_of_lt _ _ _ (by omega)]
  · rw [show (k : ℤ) - i = ((k + N - i : ℕ) : ℤ) - N by omega, ext_sub_N N hN, ext_of_lt _ _ _ (by omega)]
    ring

/-- Sums of an `N`-periodic function over a window do not depend on the window. -/
theorem sum_window (N : ℕ) (h : ℤ → Torus) (hp : ∀ z, h (z + N) = h z) (c : ℤ) :
    ∑ i ∈ Finset.range N, h (i + c) = ∑ i ∈ Finset.range N, h i := by
  have step : ∀ c : ℤ, ∑ i ∈ Finset.range N, h (i + (c + 1)) = ∑ i ∈ Finset.range N, h (i + c) := by
    intro c
    have e1 := Finset.sum_range_succ (fun i : ℕ => h (i + c)) N
    have e2 := Finset.sum_range_succ' (fun i : ℕ => h (i + c)) N
    rw [e1] at e2
    have e3 : h ((N : ℤ) + c) = h ((0 : ℕ) + c) := by
      rw [add_comm, hp]; simp
    rw [e3] at e2
    have e4 := add_right_cancel e2
    rw [e4]
    apply Finset.sum_congr rfl
    intro i _
    congr 1; push_cast; ring
  induction c using Int.induction_on with
  | zero => simp
  | succ i ih => rw [step, ih]
  | pred i ih =>
    rw [← ih, ← step]
    apply Finset.sum_congr rfl
    intro j _
    congr 1; ring

theorem negMul_congr (N : ℕ) (a a' b b' : ℕ → Torus) (ha : ∀ i < N, a i = a' i)
    (hb : ∀ i < N, b i = b' i) (k : ℕ) (hk : k < N) : negMul N a b k = negMul N a' b' k := by
  rw [negMul_eq N a b k hk, negMul_eq N a' b' k hk]
  apply Finset.sum_congr rfl
  intro i hi
  rw [ha i (Finset.mem_range.1 hi), ext_congr N (by omega) b b' hb]

theorem ext_negMul (N : ℕ) (hN : 0 < N) (a b : ℕ → Torus) (z : ℤ) :
    ext N (negMul N a b) z = ∑ j ∈ Finset.range N, a j * ext N b (z - j) := by
  rw [ext_congr N hN _ (fun k : ℕ => ∑ j ∈ Finset.range N, a j * ext N b (k - j))
    (fun k hk => negMul_eq N a b k hk)]
  rw [ext_sum]
  apply Finset.sum_congr rfl
  intro j _
  rw [ext_smul, ext_shift N hN]

theorem negMul_comm (N : ℕ) (a b : ℕ → Torus) (k : ℕ) (hk : k < N) :
    negMul N a b k = negMul N b a k := by
  have hN : 0 < N := by omega
  rw [negMul_eq N a b k hk, negMul_eq N b a k hk]
  set h : ℤ → Torus := fun z => ext N b z * ext N a (k - z) with hh
  have hp : ∀ z, h (z + N) = h z := by
    intro z
    simp only [hh]
    rw [ext_add_N N hN, show (k : ℤ) - (z + N) = k - z - N by ring, ext_sub_N N hN]
    ring
  have e1 : ∑ j ∈ Finset.range N, b j * ext N a (k - j) = ∑ j ∈ Finset.range N, h j := by
    apply Finset.sum_congr rfl
    intro j hj
    simp only [hh]
    rw [ext_of_lt _ _ _ (Finset.mem_range.1 hj)]
  have e2 : ∑ j ∈ Finset.range N, a j * ext N b (k - j)
      = ∑ j ∈ Finset.range N, h (j + (k - N + 1)) := by
    rw [← Finset.sum_range_reflect]
    apply Finset.sum_congr rfl
    intro j hj
    have hj' := Finset.mem_range.1 hj
    simp only [hh]
    rw [show (j : ℤ) + (k - N + 1) = k - ((N - 1 - j : ℕ) : ℤ) by omega,
      show (k : ℤ) - (k - ((N - 1 - j : ℕ) : ℤ)) = ((N - 1 - j : ℕ) : ℤ) by ring,
      ext_of_lt _ a _ (by omega)]
    ring
  rw [e1, e2, sum_window N h hp]

theorem negMul_assoc (N : ℕ) (a b c : ℕ → Torus) (k : ℕ) (hk : k < N) :
    negMul N (negMul N a b) c k = negMul N a (negMul N b c) k := by
  have hN : 0 < N := by omega
  rw [negMul_eq N _ c k hk, negMul_eq N a _ k hk]
  have e1 : ∀ i ∈ Finset.range N, negMul N a b i * ext N c (k - i)
      = ∑ j ∈ Finset.range N, a j * (ext N b (i - j) * ext N c (k - i)) := by
    intro i hi
    rw [negMul_eq N a b i (Finset.mem_range.1 hi), Finset.sum_mul]
    apply Finset.sum_congr rfl
    intro j _; ring
  rw [Finset.sum_congr rfl e1, Finset.sum_comm]
  apply Finset.sum_congr rfl
  intro j _
  rw [← Finset.mul_sum, ext_negMul N hN]
  congr 1
  set h : ℤ → Torus := fun z => ext N b z * ext N c (k - j - z) with hh
  have hp : ∀ z, h (z + N) = h z := by
    intro z
    simp only [hh]
    rw [ext_add_N N hN, show (k : ℤ) - j - (z + N) = k - j - z - N by ring, ext_sub_N N hN]
    ring
  have e2 : ∑ i ∈ Finset.range N, b i * ext N c (k - j - i) = ∑ i ∈ Finset.range N, h i := by
    apply Finset.sum_congr rfl
    intro i hi
    simp only [hh]
    rw [ext_of_lt _ _ _ (Finset.mem_range.1 hi)]
  rw [e2, ← sum_window N h hp (-j)]
  apply Finset.sum_congr rfl
  intro i _
  simp only [hh]
  congr 2 <;> ring

theorem negMul_add_right (N : ℕ) (a b c : ℕ → Torus) (k : ℕ) :
    negMul N a (fun i => b i + c i) k = negMul N a b k + negMul N a c k := by
  unfold negMul
  rw [← Finset.sum_add_distrib]
  apply Finset.sum_congr rfl
  intro i _
  split_ifs <;> ring

theorem negMul_sub_right (N : ℕ) (a b c : ℕ → Torus) (k : ℕ) :
    negMul N a (fun i => b i - c i) k = negMul N a b k - negMul N a c k := by
  unfold negMul
  rw [← Finset.sum_sub_distrib]
  apply Finset.sum_congr rfl
  intro i _
  split_ifs <;> ring

theorem negMul_add_left (N : ℕ) (a b c : ℕ → Torus) (k : ℕ) :
    negMul N (fun i => a i + b i) c k = negMul N a c k + negMul N b c k := by
  unfold negMul
  rw [← Finset.sum_add_distrib]
  apply Finset.sum_congr rfl
  intro i _
  split_ifs <;> ring

theorem negMul_sub_left (N : ℕ) (a b c : ℕ → Torus) (k : ℕ) :
    negMul N (fun i => a i - b i) c k = negMul N a c k - negMul N b c k := by
  unfold negMul
  rw [← Finset.sum_sub_distrib]
  apply Finset.sum_congr rfl
  intro i _
  split_ifs <;> ring

theorem negMul_smul_left (N : ℕ) (c : Torus) (a b : ℕ → Torus) (k : ℕ) :
    negMul N (fun i => c * a i) b k = c * negMul N a b k := by
  unfold negMul
  rw [Finset.mul_sum]
  apply Finset.sum_congr rfl
  intro i _
  split_ifs <;> ring

theorem negMul_smul_right (N : ℕ) (c : Torus) (a b : ℕ → Torus) (k : ℕ) :
    negMul N a (fun i => c * b i) k = c * negMul N a b k := by
  unfold negMul
  rw [Finset.mul_sum]
  apply Finset.sum_congr rfl
  intro i _
  split_ifs <;> ring

theorem negMul_sum_left {ι : Type*} (N : ℕ) (S : Finset ι) (f : ι → ℕ → Torus) (b : ℕ → Torus) (k : ℕ) :
    negMul N (fun i => ∑ j ∈ S, f j i) b k = ∑ j ∈ S, negMul N (f j) b k := by
  unfold negMul
  rw [Finset.sum_comm]
  apply Finset.sum_congr rfl
  intro i _
  split_ifs
  · rw [Finset.sum_mul]
  · rw [Finset.sum_mul, Finset.sum_neg_distrib]

theorem negMul_sum_right {ι : Type*} (N : ℕ) (S : Finset ι) (f : ι → ℕ → Torus) (a : ℕ → Torus) (k : ℕ) :
    negMul N a (fun i => ∑ j ∈ S, f j i) k = ∑ j ∈ S, negMul N a (f j) k := by
  unfold negMul
  rw [Finset.sum_comm]
  apply Finset.sum_congr rfl
  intro i _
  split_ifs
  · rw [Finset.mul_sum]
  · rw [Finset.mul_sum, Finset.sum_neg_distrib]

/-- Multiplying by a constant polynomial. -/
theorem negMul_const_right (N : ℕ) (a : ℕ → Torus) (c : Torus) (k : ℕ) (hk : k < N) :
    negMul N a (fun i => if i = 0 then c else 0) k = a k * c := by
  unfold negMul
  rw [Finset.sum_eq_single_of_mem k (Finset.mem_range.2 hk)]
  · simp
  · intro i hi hne
    have := Finset.mem_range.1 hi
    dsimp only
    by_cases h1 : i ≤ k
    · rw [if_pos h1, if_neg (by omega)]; ring
    · rw [if_neg h1, if_neg (by omega)]; ring

theorem nrm_negMul (N : ℕ) (a b : ℕ → Torus) (A B : ℕ) (ha : ∀ i < N, nrm (a i) ≤ A)
    (hb : ∀ i < N, nrm (b i) ≤ B) (k : ℕ) (hk : k < N) : nrm (negMul N a b k) ≤ N * (A * B) := by
  rw [negMul_eq N a b k hk]
  refine (nrm_sum_le _ _ (A * B) ?_).trans (by simp)
  intro i hi
  refine (nrm_mul _ _).trans (Nat.mul_le_mul (ha i (Finset.mem_range.1 hi)) ?_)
  exact nrm_ext N (by omega) b B hb _

/-- Product with a key: the bound involves the sum of the sizes of the key entries. -/
theorem nrm_negMul_weight (N : ℕ) (a b : ℕ → Torus) (A : ℕ) (ha : ∀ i < N, nrm (a i) ≤ A)
    (k : ℕ) (hk : k < N) :
    nrm (negMul N a b k) ≤ A * ∑ i ∈ Finset.range N, nrm (b i) := by
  rw [negMul_comm N a b k hk, negMul_eq N b a k hk]
  refine (nrm_sum _ _).trans ?_
  rw [Finset.mul_sum]
  apply Finset.sum_le_sum
  intro i _
  refine (nrm_mul _ _).trans ?_
  rw [Nat.mul_comm]
  exact Nat.mul_le_mul_right _ (nrm_ext N (by omega) a A ha _)

/-- Rotation of a product. -/
theorem mulXk_negMul (N : ℕ) (a b : ℕ → Torus) (e : ℤ) (k : ℕ) (hk : k < N) :
    mulXk N (negMul N a b) e k = negMul N (mulXk N a e) b k := by
  have hN : 0 < N := by omega
  unfold mulXk
  rw [ext_congr N hN _ (negMul N b a) (fun i hi => negMul_comm N a b i hi), ext_negMul N hN,
    negMul_comm N _ b k hk, negMul_eq N b _ k hk]
  apply Finset.sum_congr rfl
  intro j _
  rw [ext_shift N hN]
  congr 2; ring

theorem mulXk_mulXk (N : ℕ) (hN : 0 < N) (a : ℕ → Torus) (e e' : ℤ) (k : ℕ) :
    mulXk N (mulXk N a e) e' k = mulXk N a (e + e') k := by
  unfold mulXk
  rw [ext_shift N hN]
  congr 1; ring

theorem mulXk_congr (N : ℕ) (hN : 0 < N) (a b : ℕ → Torus) (h : ∀ i < N, a i = b i) (e : ℤ) (k : ℕ) :
    mulXk N a e k = mulXk N b e k := ext_congr N hN a b h _

theorem mulXk_add (N : ℕ) (a b : ℕ → Torus) (e : ℤ) (k : ℕ) :
    mulXk N (fun i => a i + b i) e k = mulXk N a e k + mulXk N b e k := ext_add N a b _

theorem mulXk_sub (N : ℕ) (a b : ℕ → Torus) (e : ℤ) (k : ℕ) :
    mulXk N (fun i => a i - b i) e k = mulXk N a e k - mulXk N b e k := ext_sub N a b _

theorem mulXk_zero (N : ℕ) (a : ℕ → Torus) (k : ℕ) (hk : k < N) : mulXk N a 0 k = a k := by
  unfold mulXk; rw [sub_zero, ext_of_lt _ _ _ hk]

theorem mulXk_mod (N : ℕ) (hN : 0 < N) (a : ℕ → Torus) (e e' : ℤ) (h : (2 * N : ℤ) ∣ e - e') (k : ℕ) :
    mulXk N a e k = mulXk N a e' k := by
  obtain ⟨q, hq⟩ := h
  unfold mulXk
  rw [show (k : ℤ) - e = k - e' + 2 * N * (-q) by linarith, ext_add_two_mul N hN]

end GoTfhe
