import Mathlib.Algebra.BigOperators.Field
import Mathlib.Algebra.Order.BigOperators.Ring.Finset
import Mathlib.Data.Fintype.BigOperators
import Mathlib.Data.Real.Basic
import Mathlib.Tactic.Positivity
import Mathlib.Tactic.FieldSimp
import Mathlib.Tactic.Ring
import Mathlib.Tactic.Linarith

/-!
# Averages over finite types
-/

namespace GoTfhe

open Finset

/-- The mean of `f` over a uniform element. -/
noncomputable def avg {Ω : Type*} [Fintype Ω] (f : Ω → ℝ) : ℝ := (∑ x, f x) / Fintype.card Ω

section

variable {Ω Ω' : Type*} [Fintype Ω] [Fintype Ω']

theorem avg_mono {f g : Ω → ℝ} (h : ∀ x, f x ≤ g x) : avg f ≤ avg g :=
  div_le_div_of_nonneg_right (sum_le_sum fun x _ => h x) (by positivity)

theorem avg_nonneg {f : Ω → ℝ} (h : ∀ x, 0 ≤ f x) : 0 ≤ avg f :=
  div_nonneg (sum_nonneg fun x _ => h x) (by positivity)

theorem avg_const [Nonempty Ω] (c : ℝ) : avg (fun _ : Ω => c) = c := by
  unfold avg
  have : (Fintype.card Ω : ℝ) ≠ 0 := by exact_mod_cast Fintype.card_ne_zero
  rw [sum_const, card_univ, nsmul_eq_mul, mul_div_cancel_left₀ _ this]

theorem avg_mul_left (c : ℝ) (f : Ω → ℝ) : avg (fun x => c * f x) = c * avg f := by
  unfold avg
  rw [← mul_sum, mul_div_assoc]

theorem avg_add (f g : Ω → ℝ) : avg (fun x => f x + g x) = avg f + avg g := by
  unfold avg
  rw [sum_add_distrib, add_div]

theorem avg_equiv (e : Ω ≃ Ω') (f : Ω' → ℝ) : avg (fun x => f (e x)) = avg f := by
  unfold avg
  rw [Fintype.card_congr e, Equiv.sum_comp e f]

theorem avg_swap (f : Ω → Ω' → ℝ) : avg (fun x => avg fun y => f x y) = avg (fun y => avg fun x => f x y) := by
  unfold avg
  rw [← sum_div, ← sum_div, sum_comm, div_div, div_div, mul_comm]

theorem avg_prod (f : Ω × Ω' → ℝ) : avg f = avg fun x => avg fun y => f (x, y) := by
  unfold avg
  rw [← sum_div, Fintype.sum_prod_type, Fintype.card_prod, div_div, mul_comm]
  push_cast
  ring

theorem avg_sum {ι : Type*} (s : Finset ι) (f : ι → Ω → ℝ) : avg (fun x => ∑ i ∈ s, f i x) = ∑ i ∈ s, avg (f i) := by
  unfold avg
  rw [sum_comm, sum_div]

theorem avg_le [Nonempty Ω] {f : Ω → ℝ} {c : ℝ} (h : ∀ x, f x ≤ c) : avg f ≤ c :=
  (avg_mono h).trans (le_of_eq (avg_const c))

/-- Cauchy and Schwarz. -/
theorem avg_mul_sq (f g : Ω → ℝ) : avg (fun x => f x * g x) ^ 2 ≤ avg (fun x => f x ^ 2) * avg (fun x => g x ^ 2) := by
  unfold avg
  rw [div_pow, div_mul_div_comm, ← pow_two]
  exact div_le_div_of_nonneg_right (sum_mul_sq_le_sq_mul_sq _ _ _) (by positivity)

end

/-- Drawing one coordinate again does not change the mean. -/
theorem avg_update {ι X : Type*} [Fintype ι] [DecidableEq ι] [Fintype X] [Nonempty X] (i : ι) (f : (ι → X) → ℝ) :
    avg f = avg fun a => avg fun x => f (Function.update a i x) := by
  classical
  let T : (ι → X) × X ≃ (ι → X) × X :=
    { toFun := fun p => (Function.update p.1 i p.2, p.1 i)
      invFun := fun p => (Function.update p.1 i p.2, p.1 i)
      left_inv := fun p => by simp
      right_inv := fun p => by simp }
  have h1 : avg (fun p : (ι → X) × X => f p.1) = avg f := by
    rw [avg_prod]
    congr 1
    funext a
    exact avg_const (Ω := X) (f a)
  rw [← h1, ← avg_equiv T, avg_prod]
  rfl

/-- A factor that does not depend on a coordinate, times one that is small on average over it. -/
theorem avg_mul_update {ι X : Type*} [Fintype ι] [DecidableEq ι] [Fintype X] [Nonempty X] (i : ι)
    (f h : (ι → X) → ℝ) (hf : ∀ a x, f (Function.update a i x) = f a) (h0 : ∀ a, 0 ≤ f a) (C : ℝ)
    (hC : ∀ a, f a ≠ 0 → avg (fun x => h (Function.update a i x)) ≤ C) :
    avg (fun a => f a * h a) ≤ C * avg f := by
  rw [avg_update i, ← avg_mul_left]
  refine avg_mono fun a => ?_
  simp only [hf]
  rw [avg_mul_left, mul_comm C]
  by_cases hz : f a = 0
  · rw [hz, zero_mul, zero_mul]
  · exact mul_le_mul_of_nonneg_left (hC a hz) (h0 a)

/-- A uniform element moved by any of finitely many amounts is uniform. -/
theorem avg_shift {X Y : Type*} [Fintype X] [AddGroup X] (g : Y → ℝ) (p : X → Y) (S : ℕ) (hS : 0 < S)
    (q : ℕ → X) (B : ℝ) (h : ∀ x, ∑ s ∈ range S, g (p (x + q s)) ≤ S * B) : avg (fun x => g (p x)) ≤ B := by
  have e : ∀ s, avg (fun x => g (p (x + q s))) = avg fun x => g (p x) := fun s =>
    avg_equiv (Equiv.addRight (q s)) fun x => g (p x)
  have h1 : (S : ℝ) * avg (fun x => g (p x)) = avg fun x => ∑ s ∈ range S, g (p (x + q s)) := by
    rw [avg_sum, sum_congr rfl fun s _ => e s, sum_const, card_range, nsmul_eq_mul]
  have h2 : (S : ℝ) * avg (fun x => g (p x)) ≤ S * B := by
    rw [h1]; exact avg_le h
  exact le_of_mul_le_mul_left h2 (by exact_mod_cast hS)

/-- The image of a uniform element under an additive map is moved by anything in a set that the map reaches. -/
theorem avg_reach {M V U : Type*} [Fintype M] [AddGroup M] [AddGroup V] [Fintype U] [Nonempty U] (l : M → V)
    (hl : ∀ x y, l (x + y) = l x + l y) (r : U → V) (hr : ∀ u, ∃ m, l m = r u) (φ : V → ℝ) :
    avg (fun m => φ (l m)) = avg fun m => avg fun u => φ (l m + r u) := by
  rw [avg_swap]
  have : ∀ u, avg (fun m => φ (l m + r u)) = avg fun m => φ (l m) := by
    intro u
    obtain ⟨m0, h⟩ := hr u
    rw [← h]
    simp only [← hl]
    exact avg_equiv (Equiv.addRight m0) fun m => φ (l m)
  simp only [this]
  exact (avg_const _).symm

end GoTfhe
