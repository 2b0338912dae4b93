import Verif.Spec.Game
import Mathlib.Algebra.BigOperators.Intervals
import Mathlib.Algebra.BigOperators.Field
import Mathlib.Algebra.BigOperators.Fin
import Mathlib.Analysis.SpecialFunctions.Exp
import Mathlib.Data.Fintype.BigOperators
import Mathlib.Data.Fin.Tuple.Basic
import Mathlib.Tactic.Positivity
import Mathlib.Tactic.Linarith
import Mathlib.Tactic.FieldSimp
import Mathlib.Tactic.Ring

/-!
# Coinciding classes among independent uniform values
-/

namespace GoTfhe

open Finset

section

variable {α β : Type*} [Fintype α] [DecidableEq β]

/-- The number of `k`-tuples in pairwise different classes. -/
theorem card_distinct_le (C : α → β) (m : ℕ) (hm : ∀ a, m ≤ #{x | C x = C a}) :
    ∀ k, (Fintype.card {f : Fin k → α // Function.Injective (C ∘ f)}) ≤ ∏ i ∈ range k, (Fintype.card α - i * m) := by
  classical
  intro k
  induction k with
  | zero =>
    simp only [range_zero, prod_empty]
    exact Fintype.card_le_one_iff_subsingleton.2 ⟨fun a b => Subtype.ext (Subsingleton.elim _ _)⟩
  | succ k ih =>
    rw [prod_range_succ]
    let S := {f : Fin k → α // Function.Injective (C ∘ f)}
    let T := Σ f : S, {a : α // ∀ i, C a ≠ C (f.1 i)}
    have h1 : Fintype.card {f : Fin (k + 1) → α // Function.Injective (C ∘ f)} ≤ Fintype.card T := by
      refine Fintype.card_le_of_injective
        (fun f => (⟨⟨fun i => f.1 i.castSucc, fun i j h => Fin.castSucc_injective _ (f.2 h)⟩,
          ⟨f.1 (Fin.last k), fun i h => (Fin.castSucc_lt_last i).ne' (f.2 h)⟩⟩ : T)) ?_
      intro f g h
      apply Subtype.ext
      funext i
      simp only [T, Sigma.mk.injEq] at h
      obtain ⟨h1, h2⟩ := h
      have h1 := congrArg Subtype.val h1
      refine Fin.lastCases ?_ (fun i => congrFun h1 i) i
      have : ∀ (f g : S) (a : {a : α // ∀ i, C a ≠ C (f.1 i)}) (b : {a : α // ∀ i, C a ≠ C (g.1 i)}),
          f = g → HEq a b → a.1 = b.1 := by
        rintro f g a b rfl hh
        rw [eq_of_heq hh]
      exact this _ _ _ _ (Subtype.ext h1) h2
    refine h1.trans ?_
    rw [Fintype.card_sigma]
    refine (sum_le_card_nsmul _ _ (Fintype.card α - k * m) fun f _ => ?_).trans ?_
    · rw [Fintype.card_subtype]
      have hu : (univ.biUnion fun i : Fin k => ({x | C x = C (f.1 i)} : Finset α)) ⊆ univ := subset_univ _
      have hc : #(univ.biUnion fun i : Fin k => ({x | C x = C (f.1 i)} : Finset α)) = ∑ i : Fin k, #{x | C x = C (f.1 i)} := by
        refine card_biUnion fun i _ j _ hij => ?_
        refine Finset.disjoint_left.2 ?_
        intro x hx hx'
        simp only [mem_filter, mem_univ, true_and] at hx hx'
        exact hij (f.2 (hx.symm.trans hx'))
      have hk : k * m ≤ ∑ i : Fin k, #{x | C x = C (f.1 i)} := by
        have := card_nsmul_le_sum (univ : Finset (Fin k)) (fun i => #{x | C x = C (f.1 i)}) m fun i _ => hm _
        simpa using this
      have he : ({a | ∀ i, C a ≠ C (f.1 i)} : Finset α)
          = univ \ univ.biUnion fun i : Fin k => ({x | C x = C (f.1 i)} : Finset α) := by
        ext x
        simp
      rw [he, card_sdiff_of_subset hu, hc, card_univ]
      exact Nat.sub_le_sub_left hk _
    · rw [card_univ, smul_eq_mul]
      exact Nat.mul_le_mul_right _ ih

/-- The birthday bound: if every class has at least `m` of the elements, then `k` independent uniform elements are in
pairwise different classes with probability at most `exp(-k(k-1)m / (2|α|))`. -/
theorem birthday {ι : Type*} [Fintype ι] [DecidableEq ι] [Nonempty α] (C : α → β) (m : ℕ)
    (hm : ∀ a, m ≤ #{x | C x = C a}) :
    uprob (fun f : ι → α => Function.Injective (C ∘ f))
      ≤ Real.exp (-((m : ℝ) / Fintype.card α * (Fintype.card ι * (Fintype.card ι - 1) / 2))) := by
  classical
  set k := Fintype.card ι with hk
  set A := Fintype.card α with hA
  have hA0 : 0 < (A : ℝ) := by exact_mod_cast Fintype.card_pos
  let e : (ι → α) ≃ (Fin k → α) := Equiv.arrowCongr (Fintype.equivFin ι) (Equiv.refl α)
  have h1 : (Set.ncard {f : ι → α | Function.Injective (C ∘ f)} : ℝ)
      ≤ ∏ i ∈ range k, ((A - i * m : ℕ) : ℝ) := by
    have : Set.ncard {f : ι → α | Function.Injective (C ∘ f)}
        ≤ Fintype.card {f : Fin k → α // Function.Injective (C ∘ f)} := by
      rw [← Nat.card_coe_set_eq, Nat.card_eq_fintype_card]
      refine Fintype.card_le_of_injective
        (fun f => ⟨e f.1, ?_⟩) ?_
      · exact f.2.comp (Fintype.equivFin ι).symm.injective
      · intro f g h
        exact Subtype.ext (e.injective (congrArg Subtype.val h))
    have h2 := this.trans (card_distinct_le C m hm k)
    calc (Set.ncard {f : ι → α | Function.Injective (C ∘ f)} : ℝ)
        ≤ ((∏ i ∈ range k, (A - i * m) : ℕ) : ℝ) := by exact_mod_cast h2
      _ = _ := by push_cast; rfl
  have h2 : ∏ i ∈ range k, ((A - i * m : ℕ) : ℝ) ≤ ∏ i ∈ range k, ((A : ℝ) * Real.exp (-(i * m / A))) := by
    refine prod_le_prod (fun i _ => by positivity) fun i _ => ?_
    rcases le_total (i * m) A with h | h
    · rw [Nat.cast_sub h]
      have := Real.add_one_le_exp (-((i : ℝ) * m / A))
      calc ((A : ℝ) - ((i * m : ℕ) : ℝ)) = A * (-((i : ℝ) * m / A) + 1) := by
            push_cast
            field_simp
            ring
        _ ≤ _ := mul_le_mul_of_nonneg_left this hA0.le
    · rw [Nat.sub_eq_zero_of_le h]
      simpa using by positivity
  have h3 : ∏ i ∈ range k, ((A : ℝ) * Real.exp (-(i * m / A)))
      = (A : ℝ) ^ k * Real.exp (-((m : ℝ) / A * (k * (k - 1) / 2))) := by
    rw [prod_mul_distrib, prod_const, card_range, ← Real.exp_sum]
    congr 2
    rw [sum_neg_distrib, neg_inj, ← sum_div]
    rw [← sum_mul]
    have : ∀ k : ℕ, ∑ i ∈ range k, (i : ℝ) = (k : ℝ) * (k - 1) / 2 := by
      intro k
      induction k with
      | zero => simp
      | succ k ih => rw [sum_range_succ, ih]; push_cast; ring
    rw [this]
    ring
  unfold uprob
  have hc : (Fintype.card (ι → α) : ℝ) = (A : ℝ) ^ k := by
    rw [Fintype.card_fun]
    push_cast
    rfl
  rw [hc, div_le_iff₀ (by positivity), mul_comm]
  exact h1.trans (h2.trans h3.le)

end

/-- Every remainder modulo `q` is taken at least `m` times among the numbers below `n ≥ m q`. -/
theorem le_card_class (n q m : ℕ) (hq : 0 < q) (h : m * q ≤ n) (a : Fin n) :
    m ≤ #{x : Fin n | x.1 % q = a.1 % q} := by
  have hlt : ∀ j : Fin m, a.1 % q + j.1 * q < n := by
    intro j
    have h1 := Nat.mod_lt a.1 hq
    have h2 : (j.1 + 1) * q ≤ m * q := Nat.mul_le_mul_right _ j.2
    rw [Nat.add_mul] at h2
    omega
  have := card_le_card_of_injOn (s := (univ : Finset (Fin m))) (t := {x : Fin n | x.1 % q = a.1 % q})
    (fun j => ⟨a.1 % q + j.1 * q, hlt j⟩) (fun j _ => by simp) (by
      intro i _ j _ hij
      have := congrArg Fin.val hij
      simp only at this
      exact Fin.ext (Nat.eq_of_mul_eq_mul_right hq (by omega)))
  simpa using this

/-- A remainder modulo `q` is taken at most `n / q + 1` times among the numbers below `n`. -/
theorem card_class_le (n q c : ℕ) : #{x : Fin n | x.1 % q = c} ≤ n / q + 1 := by
  have := card_le_card_of_injOn (s := ({x : Fin n | x.1 % q = c} : Finset (Fin n))) (t := range (n / q + 1))
    (fun x => x.1 / q) (fun x _ => by
      have := Nat.div_le_div_right (c := q) x.2.le
      simp only [coe_range, Set.mem_Iio]
      omega) (by
      intro x hx y hy hxy
      simp only [coe_filter, mem_univ, true_and, Set.mem_ofPred_eq] at hx hy
      apply Fin.ext
      rw [← Nat.div_add_mod x.1 q, ← Nat.div_add_mod y.1 q, hx, hy]
      simp only at hxy
      rw [hxy])
  simpa using this

end GoTfhe
