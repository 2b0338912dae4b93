import Verif.Model.RotatePrivate
import Verif.Lemmas.Rotate
import Mathlib.Tactic.Linarith

/-!
# C13: the private rotation of package `trgsw`
-/

namespace GoTfhe

theorem wrInt_eq {α : Type*} (r : List α) (i : ℤ) (j : ℕ) (x : α) (h : i = j) : wrInt r i x = wr r j x := by
  subst h
  simp [wrInt]

/-- **C13**: the private copy of the rotation in package `trgsw` agrees with the exported one when Go's `k % 2n` is not
negative, that is for `k ≥ 0` and for multiples of `2n`, and panics for all other exponents. -/
theorem C13_private (a : List Torus) (k : ℤ) (result : List Torus) :
    polyMulWithXKPrivate a k result =
      if 0 ≤ k ∨ (2 * a.length : ℤ) ∣ k then polyMulWithXK a k result else none := by
  rcases Nat.eq_zero_or_pos a.length with h0 | h0
  · have : a = [] := List.eq_nil_of_length_eq_zero h0
    subst this
    simp [polyMulWithXKPrivate, polyMulWithXK, goMod]
  have h2 : (0 : ℤ) < 2 * a.length := by omega
  have hm : goMod k (2 * a.length) = some (Int.tmod k (2 * a.length)) := by
    rw [goMod, if_neg (by omega)]
  have hdvd : (2 * a.length : ℤ) ∣ k ↔ Int.tmod k (2 * a.length) = 0 := Int.dvd_iff_tmod_eq_zero
  unfold polyMulWithXKPrivate polyMulWithXK
  simp only [hm, Option.bind_eq_bind, Option.bind_some]
  rcases lt_trichotomy (Int.tmod k (2 * a.length)) 0 with hk | hk | hk
  · have hneg : ¬ (0 ≤ k ∨ (2 * a.length : ℤ) ∣ k) := by
      rw [hdvd]
      rintro (h | h)
      · have := Int.tmod_nonneg (2 * a.length : ℤ) h
        omega
      · omega
    rw [if_neg hneg, if_neg (by omega), if_pos (by omega),
      forRange_succ_left _ _ (by omega)]
    have : rd a 0 = some (a[0]'h0) := by simp [rd]
    simp [this, wrInt, hk]
  · rw [if_pos hk, if_pos hk, if_pos (Or.inr (hdvd.2 hk))]
  · have hpos : 0 ≤ k ∨ (2 * a.length : ℤ) ∣ k := by
      left
      by_contra h
      have h' : 0 ≤ Int.tmod (-k) (2 * a.length) := Int.tmod_nonneg _ (by omega)
      rw [Int.neg_tmod] at h'
      omega
    have hlt : Int.tmod k (2 * a.length) < 2 * a.length := Int.tmod_lt_of_pos k h2
    generalize Int.tmod k (2 * a.length) = t at hk hlt
    rw [if_pos hpos]
    simp only [if_neg (show ¬ t = 0 by omega), if_neg (show ¬ t < 0 by omega)]
    split_ifs with ht
    · rw [show ((a.length : ℤ) - t).toNat = a.length - t.toNat by omega]
      refine congrArg₂ _ (forRange_congr _ _ _ _ _ fun i r _ hi => ?_) (funext fun r' =>
        forRange_congr _ _ _ _ _ fun i r hi _ => ?_)
      · congr 1
        funext x
        exact wrInt_eq _ _ _ _ (by omega)
      · congr 1
        funext x
        exact wrInt_eq _ _ _ _ (by omega)
    · rw [show ((a.length : ℤ) - (t - a.length)).toNat = a.length - (t - a.length).toNat by omega]
      refine congrArg₂ _ (forRange_congr _ _ _ _ _ fun i r _ hi => ?_) (funext fun r' =>
        forRange_congr _ _ _ _ _ fun i r hi _ => ?_)
      · congr 1
        funext x
        exact wrInt_eq _ _ _ _ (by omega)
      · congr 1
        funext x
        exact wrInt_eq _ _ _ _ (by omega)

example : polyMulWithXKPrivate [1#32, 2#32] 3 [0#32, 0#32] = some [2#32, -2#32] ∧
    polyMulWithXKPrivate [1#32, 2#32] (-1) [0#32, 0#32] = none ∧
    polyMulWithXK [1#32, 2#32] (-1) [0#32, 0#32] = some [2#32, -2#32] := by decide

end GoTfhe
