import Mathlib.Algebra.CharP.Lemmas
import Mathlib.Algebra.Polynomial.AlgebraMap
import Mathlib.Algebra.Polynomial.Div
import Mathlib.Algebra.Polynomial.Roots
import Mathlib.RingTheory.Nilpotent.Basic
import Mathlib.Algebra.Field.ZMod

/-!
# Multiplication by a polynomial with an odd coefficient modulo X^N + 1

In a ring where an element S has S^(2^k) = -1 and where 2 is nilpotent, a polynomial in S
whose value at 1 is odd is invertible.  A polynomial of degree below 2^k with at least one
odd coefficient divides 2.
-/

namespace GoTfhe

open Polynomial

/-- (X - 1)^(2^k) is X^(2^k) + 1 up to an even polynomial. -/
theorem X_sub_one_pow (k : ℕ) (hk : 1 ≤ k) :
    ∃ r : ℤ[X], (X - 1 : ℤ[X]) ^ 2 ^ k = X ^ 2 ^ k + 1 + 2 * r := by
  obtain ⟨r, hr⟩ := (Commute.all (X : ℤ[X]) (-1)).exists_add_pow_prime_pow_eq Nat.prime_two k
  refine ⟨X * (-1) * r, ?_⟩
  rw [sub_eq_add_neg, hr, Even.neg_one_pow ((Nat.even_pow' (by omega)).2 even_two)]
  push_cast
  ring

variable {A : Type*} [Ring A]

theorem unit_aeval (S : A) (k : ℕ) (hk : 1 ≤ k) (hS : S ^ 2 ^ k = -1) (w : ℕ)
    (h2 : (2 : A) ^ w = 0) (p : ℤ[X]) (hp : Odd (p.eval 1)) : IsUnit (aeval S p) := by
  obtain ⟨m, hm⟩ := hp
  obtain ⟨q, hq⟩ := X_sub_C_dvd_sub_C_eval (a := (1 : ℤ)) (p := p)
  obtain ⟨r, hr⟩ := X_sub_one_pow k hk
  obtain ⟨t, ht⟩ := (Commute.all (2 * C m : ℤ[X]) ((X - 1) * q)).exists_add_pow_prime_pow_eq
    Nat.prime_two k
  have hp : p = 1 + (2 * C m + (X - 1) * q) := by
    have : p = C (p.eval 1) + (X - C 1) * q := by rw [← hq]; ring
    rw [this, hm]
    simp only [map_add, map_mul, map_one, map_ofNat]
    ring
  have hpos : 2 ^ k = (2 ^ k - 1) + 1 := by
    have := Nat.one_le_two_pow (n := k); omega
  have hn : ∃ z : ℤ[X], (2 * C m + (X - 1) * q) ^ 2 ^ k = (X ^ 2 ^ k + 1) * q ^ 2 ^ k + 2 * z := by
    refine ⟨C m * (2 * C m) ^ (2 ^ k - 1) + r * q ^ 2 ^ k + 2 * C m * ((X - 1) * q) * t, ?_⟩
    rw [ht, mul_pow (X - 1), hr]
    rw [show (2 * C m : ℤ[X]) ^ 2 ^ k = (2 * C m) * (2 * C m) ^ (2 ^ k - 1) by
      rw [← pow_succ', ← hpos]]
    push_cast
    ring
  obtain ⟨z, hz⟩ := hn
  rw [hp, map_add, map_one]
  refine IsNilpotent.isUnit_one_add ⟨2 ^ k * w, ?_⟩
  rw [pow_mul, ← map_pow, hz]
  simp only [map_add, map_mul, map_pow, aeval_X, map_one, hS, map_ofNat]
  rw [neg_add_cancel, zero_mul, zero_add, (Commute.ofNat_left 2 _).mul_pow, h2, zero_mul]

/-- A polynomial of degree below 2^k with an odd coefficient divides 2 at S. -/
theorem half_aeval (S : A) (k : ℕ) (hk : 1 ≤ k) (hS : S ^ 2 ^ k = -1) (w : ℕ)
    (h2 : (2 : A) ^ w = 0) (d : ℤ[X]) (hd : d.natDegree < 2 ^ k)
    (hodd : ∃ i, Odd (d.coeff i)) : ∃ e : A, aeval S d * e = 2 := by
  obtain ⟨i, hi⟩ := hodd
  let f := Int.castRingHom (ZMod 2)
  have hd0 : d.map f ≠ 0 := by
    intro h
    have h1 := congrArg (fun p => p.coeff i) h
    simp only [coeff_map, coeff_zero] at h1
    have h3 : ((d.coeff i : ℤ) : ZMod 2) = 0 := h1
    rw [ZMod.intCast_zmod_eq_zero_iff_dvd] at h3
    rw [← Int.not_even_iff_odd] at hi
    exact hi (even_iff_two_dvd.2 (by exact_mod_cast h3))
  obtain ⟨q, hq, hnd⟩ := exists_eq_pow_rootMultiplicity_mul_and_not_dvd (d.map f) hd0 1
  set v := (d.map f).rootMultiplicity 1 with hv
  have hvN : v < 2 ^ k := by
    have h1 : v ≤ (d.map f).natDegree := by
      have : Fact (Nat.Prime 2) := ⟨Nat.prime_two⟩
      have h5 := natDegree_le_of_dvd (Dvd.intro _ hq.symm) hd0
      have h6 : ((X - C (1 : ZMod 2)) ^ v).natDegree = v := by
        rw [natDegree_pow, natDegree_X_sub_C, mul_one]
      omega
    exact lt_of_le_of_lt (h1.trans natDegree_map_le) hd
  obtain ⟨u, hu⟩ := map_surjective f (ZMod.intCast_surjective (n := 2)) q
  have hu1 : Odd (u.eval 1) := by
    rw [← Int.not_even_iff_odd]
    intro he
    apply hnd
    rw [dvd_iff_isRoot, IsRoot, ← hu, show (1 : ZMod 2) = f 1 by simp, eval_map, eval₂_at_apply]
    obtain ⟨y, hy⟩ := he
    rw [hy]
    change ((y + y : ℤ) : ZMod 2) = 0
    rw [ZMod.intCast_zmod_eq_zero_iff_dvd]
    exact ⟨y, by push_cast; ring⟩
  have hg : (C 2 : ℤ[X]) ∣ d - (X - 1) ^ v * u := by
    rw [C_dvd_iff_dvd_coeff]
    intro j
    have h1 : (d - (X - 1) ^ v * u).map f = 0 := by
      rw [Polynomial.map_sub, Polynomial.map_mul, Polynomial.map_pow, Polynomial.map_sub, map_X,
        Polynomial.map_one, hu, sub_eq_zero]
      simpa using hq
    have h3 := congrArg (fun p => p.coeff j) h1
    simp only [coeff_map, coeff_zero] at h3
    have h4 : (((d - (X - 1) ^ v * u).coeff j : ℤ) : ZMod 2) = 0 := h3
    rw [ZMod.intCast_zmod_eq_zero_iff_dvd] at h4
    exact_mod_cast h4
  obtain ⟨g, hg⟩ := hg
  obtain ⟨r, hr⟩ := X_sub_one_pow k hk
  have hr1 : r.eval 1 = -1 := by
    have h1 := congrArg (eval 1) hr
    simp only [eval_pow, eval_sub, eval_X, eval_one, eval_add, eval_mul, eval_ofNat, sub_self,
      one_pow] at h1
    rw [zero_pow (by positivity)] at h1
    omega
  have hunit : IsUnit (aeval S (r * u + g * (X - 1) ^ (2 ^ k - v))) := by
    refine unit_aeval S k hk hS w h2 _ ?_
    simp only [eval_add, eval_mul, eval_pow, eval_sub, eval_X, eval_one, sub_self]
    rw [zero_pow (by omega), hr1]
    obtain ⟨y, hy⟩ := hu1
    exact ⟨-y - 1, by rw [hy]; ring⟩
  have hmain : d * (X - 1) ^ (2 ^ k - v)
      = (X ^ 2 ^ k + 1) * u + 2 * (r * u + g * (X - 1) ^ (2 ^ k - v)) := by
    have h1 : d = (X - 1) ^ v * u + C 2 * g := by rw [← hg]; ring
    have h3 : (X - 1 : ℤ[X]) ^ v * (X - 1) ^ (2 ^ k - v) = (X - 1) ^ 2 ^ k := by
      rw [← pow_add]; congr 1; omega
    have h4 : (C 2 : ℤ[X]) = 2 := by simp
    rw [h1, h4]
    calc _ = ((X - 1 : ℤ[X]) ^ v * (X - 1) ^ (2 ^ k - v)) * u
          + 2 * (g * (X - 1) ^ (2 ^ k - v)) := by ring
      _ = _ := by rw [h3, hr]; ring
  have hA := congrArg (aeval S) hmain
  rw [map_mul, map_add, map_mul, map_mul (aeval S) 2] at hA
  simp only [map_add (aeval S) (X ^ 2 ^ k), map_pow, aeval_X, map_one, hS, map_ofNat,
    neg_add_cancel, zero_mul, zero_add] at hA
  obtain ⟨U, hU⟩ := hunit
  refine ⟨aeval S (X - 1 : ℤ[X]) ^ (2 ^ k - v) * (↑U⁻¹ : A), ?_⟩
  rw [← hU] at hA
  rw [← mul_assoc, hA, mul_assoc, Units.mul_inv, mul_one]

end GoTfhe
