import Mathlib.Algebra.BigOperators.Field
import Mathlib.Algebra.Order.BigOperators.Ring.Finset
import Mathlib.Analysis.SpecialFunctions.Pow.NNReal
import Mathlib.GroupTheory.Coset.Card
import Mathlib.GroupTheory.QuotientGroup.Basic
import Mathlib.Tactic.FieldSimp

/-!
# The leftover hash lemma

For a family of homomorphisms `h s : A →+ G` of finite groups whose pairwise differences are onto, the pair
`(a, h s a)` with uniform `a` and `s` is within statistical distance `sqrt (|G|/|S|) / 2` of a uniform pair.
-/

namespace GoTfhe

open Finset

/-- The kernel of a homomorphism onto `G` has `|A| / |G|` elements. -/
theorem card_ker_mul {A G : Type*} [AddCommGroup A] [Fintype A] [AddCommGroup G] [Fintype G] [DecidableEq G]
    (f : A →+ G) (hf : Function.Surjective f) :
    (Finset.univ.filter fun a => f a = 0).card * Fintype.card G = Fintype.card A := by
  have h1 := AddSubgroup.card_eq_card_quotient_mul_card_addSubgroup f.ker
  have h2 := Nat.card_congr (QuotientAddGroup.quotientKerEquivOfSurjective f hf).toEquiv
  rw [h2] at h1
  have h3 : Nat.card f.ker = (Finset.univ.filter fun a => f a = 0).card := by
    rw [Nat.card_eq_fintype_card, ← Fintype.card_subtype]
    exact Fintype.card_congr (Equiv.refl _)
  rw [Nat.card_eq_fintype_card, Nat.card_eq_fintype_card, h3] at h1
  rw [h1, mul_comm]

theorem leftover_hash {S A G : Type*} [Fintype S] [DecidableEq S] [Nonempty S] [AddCommGroup A] [Fintype A]
    [AddCommGroup G] [Fintype G] [DecidableEq G] (h : S → A →+ G)
    (hs : ∀ s s', s ≠ s' → Function.Surjective (h s - h s')) (w : A → G → ℝ)
    (hw : ∀ a g, w a g = 0 ∨ w a g = 1) :
    |(∑ a, ∑ s, w a (h s a)) / (Fintype.card A * Fintype.card S)
      - (∑ a, ∑ g, w a g) / (Fintype.card A * Fintype.card G)|
      ≤ 1 / 2 * Real.sqrt (Fintype.card G / Fintype.card S) := by
  have cA : (0 : ℝ) < Fintype.card A := by exact_mod_cast Fintype.card_pos
  have cS : (0 : ℝ) < Fintype.card S := by exact_mod_cast Fintype.card_pos
  have cG : (0 : ℝ) < Fintype.card G := by exact_mod_cast Fintype.card_pos
  let f : A → G → ℝ := fun a g => ∑ s, if h s a = g then 1 else 0
  have hwf : ∀ (u : A → G → ℝ), ∑ a, ∑ s, u a (h s a) = ∑ a, ∑ g, u a g * f a g := by
    intro u
    refine sum_congr rfl fun a _ => ?_
    simp only [f, mul_sum]
    rw [sum_comm]
    refine sum_congr rfl fun s _ => ?_
    rw [sum_eq_single (h s a)]
    · simp
    · intro g _ hg; rw [if_neg (Ne.symm hg), mul_zero]
    · simp
  have hf1 : ∑ a, ∑ g, f a g = Fintype.card A * Fintype.card S := by
    have := hwf fun _ _ => 1
    simp only [one_mul] at this
    rw [← this]; simp
  have hker : ∀ s s', s ≠ s' → ∑ a, (if h s' a = h s a then (1 : ℝ) else 0) = Fintype.card A / Fintype.card G := by
    intro s s' hne
    have e := card_ker_mul (h s - h s') (hs s s' hne)
    rw [eq_div_iff cG.ne', ← sum_filter_add_sum_filter_not univ (fun a => (h s - h s') a = 0)]
    rw [sum_congr rfl (g := fun _ => (1 : ℝ)), sum_eq_zero (s := filter (fun a => ¬ (h s - h s') a = 0) univ)]
    · rw [sum_const, nsmul_eq_mul, mul_one, add_zero]
      exact_mod_cast e
    · intro a ha
      have := (mem_filter.1 ha).2
      rw [if_neg]
      intro h2
      apply this
      rw [AddMonoidHom.sub_apply, h2, sub_self]
    · intro a ha
      have := (mem_filter.1 ha).2
      rw [AddMonoidHom.sub_apply, sub_eq_zero] at this
      rw [if_pos this.symm]
  have hf2 : ∑ a, ∑ g, f a g * f a g
      = Fintype.card S * (Fintype.card A + (Fintype.card S - 1) * (Fintype.card A / Fintype.card G)) := by
    rw [← hwf f]
    simp only [f]
    rw [sum_comm]
    have : ∀ s : S, ∑ a, ∑ s', (if h s' a = h s a then (1 : ℝ) else 0)
        = Fintype.card A + (Fintype.card S - 1) * (Fintype.card A / Fintype.card G) := by
      intro s
      rw [sum_comm, ← add_sum_erase _ _ (mem_univ s)]
      congr 1
      · simp
      · rw [sum_congr rfl (g := fun _ => (Fintype.card A / Fintype.card G : ℝ))]
        · rw [sum_const, nsmul_eq_mul, card_erase_of_mem (mem_univ s), card_univ,
            Nat.cast_sub Fintype.card_pos, Nat.cast_one]
        · intro s' hs'
          exact hker s s' (Ne.symm (ne_of_mem_erase hs'))
    rw [sum_congr rfl fun s _ => this s, sum_const, card_univ, nsmul_eq_mul]
  let x : A → G → ℝ := fun a g => f a g / (Fintype.card A * Fintype.card S) - 1 / (Fintype.card A * Fintype.card G)
  have hx0 : ∑ a, ∑ g, x a g = 0 := by
    simp only [x, sum_sub_distrib, ← sum_div]
    rw [hf1, sum_const, sum_const, card_univ, card_univ, nsmul_eq_mul, nsmul_eq_mul]
    field_simp
    ring
  have hx2 : ∑ a, ∑ g, x a g ^ 2 ≤ 1 / (Fintype.card A * Fintype.card S) := by
    have e : ∀ a g, x a g ^ 2 = (f a g * f a g) / (Fintype.card A * Fintype.card S) ^ 2
        - 2 / ((Fintype.card A * Fintype.card S) * (Fintype.card A * Fintype.card G)) * f a g
        + 1 / (Fintype.card A * Fintype.card G) ^ 2 := by
      intro a g
      simp only [x]
      field_simp
      ring
    simp only [e, sum_add_distrib, sum_sub_distrib, ← sum_div, ← mul_sum]
    rw [hf2, hf1, sum_const, sum_const, card_univ, card_univ, nsmul_eq_mul, nsmul_eq_mul]
    rw [← sub_nonneg]
    have : 1 / ((Fintype.card A : ℝ) * Fintype.card S) - (Fintype.card S *
        (Fintype.card A + (Fintype.card S - 1) * (Fintype.card A / Fintype.card G))
        / (Fintype.card A * Fintype.card S) ^ 2
        - 2 / ((Fintype.card A * Fintype.card S) * (Fintype.card A * Fintype.card G))
          * (Fintype.card A * Fintype.card S)
        + Fintype.card A * (Fintype.card G * 1) / (Fintype.card A * Fintype.card G) ^ 2)
        = 1 / (Fintype.card A * Fintype.card S * Fintype.card G) := by
      field_simp
      ring
    rw [this]
    positivity
  have hdiff : (∑ a, ∑ s, w a (h s a)) / (Fintype.card A * Fintype.card S)
      - (∑ a, ∑ g, w a g) / (Fintype.card A * Fintype.card G) = ∑ p : A × G, (w p.1 p.2 - 1 / 2) * x p.1 p.2 := by
    rw [hwf w, Fintype.sum_prod_type]
    simp only [sub_mul, sum_sub_distrib, ← mul_sum]
    rw [hx0, mul_zero, sub_zero]
    simp only [x, mul_sub, sum_sub_distrib, sum_div]
    congr 1
    · refine sum_congr rfl fun a _ => sum_congr rfl fun g _ => by rw [mul_div_assoc]
    · refine sum_congr rfl fun a _ => sum_congr rfl fun g _ => by rw [mul_one_div]
  rw [hdiff]
  have hcs := sum_mul_sq_le_sq_mul_sq (univ : Finset (A × G)) (fun p => w p.1 p.2 - 1 / 2) (fun p => x p.1 p.2)
  have hw2 : ∑ p : A × G, (w p.1 p.2 - 1 / 2) ^ 2 = (Fintype.card A : ℝ) * Fintype.card G / 4 := by
    rw [sum_congr rfl (g := fun _ => (1 / 4 : ℝ))]
    · rw [sum_const, card_univ, Fintype.card_prod, nsmul_eq_mul]; push_cast; ring
    · intro p _
      rcases hw p.1 p.2 with h | h <;> rw [h] <;> norm_num
  rw [hw2, Fintype.sum_prod_type (fun p : A × G => x p.1 p.2 ^ 2)] at hcs
  have hfin : (∑ p : A × G, (w p.1 p.2 - 1 / 2) * x p.1 p.2) ^ 2
      ≤ (1 / 2 * Real.sqrt (Fintype.card G / Fintype.card S)) ^ 2 := by
    refine hcs.trans ((mul_le_mul_of_nonneg_left hx2 (by positivity)).trans (le_of_eq ?_))
    rw [mul_pow, Real.sq_sqrt (by positivity)]
    field_simp
    norm_num
  exact abs_le_of_sq_le_sq hfin (by positivity)

end GoTfhe
