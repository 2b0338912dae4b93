import Mathlib.Data.Set.Card
import Mathlib.Data.Fintype.BigOperators
import Mathlib.Data.Real.Basic
import Mathlib.Tactic.Ring
import Mathlib.Tactic.Linarith
import Verif.Spec.Mask

/-!
# Counting masks all of whose rows have an even sum

A mask of `n * N` words is read as `n` rows of `N` words. The masks all of whose row sums are even are at most a
fraction `2^-n`: flipping the lowest bit of the first word of any set of rows gives `2^n` disjoint copies of them.
-/

namespace GoTfhe

/-- Flip the lowest bit. -/
def flipLow (x : Fin (2 ^ 32)) : Fin (2 ^ 32) :=
  ⟨if x.val % 2 = 0 then x.val + 1 else x.val - 1, by have := x.isLt; split_ifs <;> omega⟩

theorem flipLow_flipLow (x : Fin (2 ^ 32)) : flipLow (flipLow x) = x := by
  apply Fin.ext
  unfold flipLow
  simp only
  split_ifs <;> omega

theorem flipLow_mod (x : Fin (2 ^ 32)) : (flipLow x).val % 2 = 1 - x.val % 2 := by
  unfold flipLow
  simp only
  split_ifs <;> omega

/-- Every row has an even sum. -/
def EvenRows (n N : ℕ) (a : Mask (n * N)) : Prop :=
  ∀ i < n, (∑ k ∈ Finset.range N, (a.draw (i * N + k)).toNat) % 2 = 0

/-- Flip the lowest bit of the first word of the rows in `S`. -/
def flipRows {n N : ℕ} (S : Fin n → Bool) (a : Mask (n * N)) : Mask (n * N) := fun p =>
  if p.val % N = 0 ∧ S ⟨p.val / N, Nat.div_lt_of_lt_mul (p.isLt.trans_eq (Nat.mul_comm _ _))⟩ = true then flipLow (a p)
  else a p

theorem flipRows_row {n N : ℕ} (hN : 0 < N) (S : Fin n → Bool) (a : Mask (n * N)) (ha : EvenRows n N a) (i : Fin n) :
    (∑ k ∈ Finset.range N, ((flipRows S a).draw (i.val * N + k)).toNat) % 2 = if S i then 1 else 0 := by
  obtain ⟨m, rfl⟩ : ∃ m, N = m + 1 := ⟨N - 1, by omega⟩
  have h := ha i i.isLt
  have hlt : ∀ k < m + 1, i.val * (m + 1) + k < n * (m + 1) := by
    intro k hk
    have : (i.val + 1) * (m + 1) ≤ n * (m + 1) := Nat.mul_le_mul_right _ i.isLt
    linarith [Nat.add_mul i.val 1 (m + 1)]
  have hdiv : ∀ k < m + 1, (i.val * (m + 1) + k) / (m + 1) = i.val := by
    intro k hk
    rw [Nat.add_comm, Nat.add_mul_div_right _ _ (Nat.succ_pos m), Nat.div_eq_of_lt hk, zero_add]
  have hmod : ∀ k < m + 1, (i.val * (m + 1) + k) % (m + 1) = k := by
    intro k hk
    rw [Nat.add_comm, Nat.add_mul_mod_self_right, Nat.mod_eq_of_lt hk]
  have hrest : ∀ k ∈ Finset.range m, ((flipRows S a).draw (i.val * (m + 1) + (k + 1))).toNat
      = (a.draw (i.val * (m + 1) + (k + 1))).toNat := by
    intro k hk
    have hk' : k + 1 < m + 1 := by have := Finset.mem_range.1 hk; omega
    unfold Mask.draw flipRows
    rw [dif_pos (hlt _ hk'), dif_pos (hlt _ hk'), if_neg]
    rw [hmod _ hk']; omega
  rw [Finset.sum_range_succ'] at h ⊢
  rw [Finset.sum_congr rfl hrest]
  have h0 : ((flipRows S a).draw (i.val * (m + 1) + 0)).toNat % 2
      = if S i then 1 - (a.draw (i.val * (m + 1) + 0)).toNat % 2 else (a.draw (i.val * (m + 1) + 0)).toNat % 2 := by
    unfold Mask.draw
    rw [dif_pos (hlt 0 (by omega)), dif_pos (hlt 0 (by omega))]
    have e : (⟨(i.val * (m + 1) + 0) / (m + 1), by rw [hdiv 0 (by omega)]; exact i.isLt⟩ : Fin n) = i :=
      Fin.ext (hdiv 0 (by omega))
    unfold flipRows
    simp only [hmod 0 (Nat.succ_pos m), e, true_and]
    by_cases hS : S i = true
    · rw [if_pos hS, if_pos hS]
      exact flipLow_mod _
    · rw [if_neg hS, if_neg hS]
  by_cases hS : S i = true
  · rw [if_pos hS] at h0 ⊢; omega
  · rw [if_neg hS] at h0 ⊢; omega

/-- The masks with even rows are at most a fraction `2^-n`. -/
theorem card_evenRows (n N : ℕ) (hN : 0 < N) : MaskProbLe (EvenRows n N) (1 / 2 ^ n) := by
  classical
  unfold MaskProbLe
  have hinj : Function.Injective fun x : (Fin n → Bool) × {a : Mask (n * N) // EvenRows n N a} => flipRows x.1 x.2.1 := by
    rintro ⟨S, a, ha⟩ ⟨T, b, hb⟩ h
    simp only at h
    have hST : S = T := by
      funext i
      have h1 := flipRows_row hN S a ha i
      have h2 := flipRows_row hN T b hb i
      rw [h, h2] at h1
      cases hS : S i <;> cases hT : T i <;> simp [hS, hT] at h1 ⊢
    subst hST
    have hab : a = b := by
      funext p
      have := congrFun h p
      unfold flipRows at this
      split_ifs at this
      · rw [← flipLow_flipLow (a p), this, flipLow_flipLow]
      · exact this
    subst hab
    rfl
  have hc := Fintype.card_le_of_injective _ hinj
  rw [Fintype.card_prod, Fintype.card_fun, Fintype.card_fun, Fintype.card_bool, Fintype.card_fin, Fintype.card_fin,
    Fintype.card_fin] at hc
  have hs : Set.ncard {a : Mask (n * N) | EvenRows n N a} = Fintype.card {a : Mask (n * N) // EvenRows n N a} := by
    rw [← Nat.card_coe_set_eq, ← Nat.card_eq_fintype_card]
    rfl
  rw [hs]
  have hr : (2 : ℝ) ^ n * (Fintype.card {a : Mask (n * N) // EvenRows n N a} : ℝ) ≤ (2 ^ 32) ^ (n * N) := by
    exact_mod_cast hc
  rw [div_mul_eq_mul_div, one_mul, le_div_iff₀ (by positivity)]
  linarith

end GoTfhe
