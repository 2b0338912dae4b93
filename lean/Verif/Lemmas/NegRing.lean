import Verif.Lemmas.Negacyclic
import Mathlib.RingTheory.AdjoinRoot
import Mathlib.Algebra.CharP.Lemmas
import Mathlib.Algebra.CharP.Quotient
import Mathlib.FieldTheory.Finite.Basic
import Mathlib.Algebra.Ring.Int.Parity

/-!
# The ring `(Z/2^32)[X]/(X^N+1)` as a quotient of a polynomial ring

Coefficient functions map to it, `negMul` to its product. Used to invert polynomials.
-/

namespace GoTfhe

open Polynomial

/-- `X^N + 1` -/
noncomputable def cyc (N : ℕ) : Torus[X] := X ^ N + 1

/-- `(Z/2^32)[X]/(X^N+1)` -/
abbrev NegRing (N : ℕ) := AdjoinRoot (cyc N)

/-- The class of `X`. -/
noncomputable def xx (N : ℕ) : NegRing N := AdjoinRoot.root (cyc N)

theorem xx_pow (N : ℕ) : xx N ^ N = -1 := by
  have h : AdjoinRoot.mk (cyc N) (cyc N) = 0 := AdjoinRoot.mk_self
  unfold cyc at h
  rw [map_add, map_pow, AdjoinRoot.mk_X, map_one] at h
  exact eq_neg_of_add_eq_zero_left h

/-- The class of the polynomial with coefficients `f`. -/
noncomputable def cls (N : ℕ) (f : ℕ → Torus) : NegRing N :=
  ∑ i ∈ Finset.range N, AdjoinRoot.of (cyc N) (f i) * xx N ^ i

theorem cls_congr (N : ℕ) (f g : ℕ → Torus) (h : ∀ i < N, f i = g i) : cls N f = cls N g :=
  Finset.sum_congr rfl fun i hi => by rw [h i (Finset.mem_range.1 hi)]

theorem cls_negMul (N : ℕ) (a b : ℕ → Torus) : cls N (negMul N a b) = cls N a * cls N b := by
  unfold cls negMul
  simp only [map_sum, Finset.sum_mul]
  rw [Finset.sum_comm]
  refine Finset.sum_congr rfl fun i hi => ?_
  have hi := Finset.mem_range.1 hi
  rw [Finset.mul_sum]
  -- the left side runs over the exponent of the product, the right side over that of the second factor
  refine Finset.sum_bij' (fun k _ => if i ≤ k then k - i else k + N - i)
    (fun j _ => if i + j < N then i + j else i + j - N) ?_ ?_ ?_ ?_ ?_
  · intro k hk
    have hk := Finset.mem_range.1 hk
    simp only [Finset.mem_range]
    split_ifs <;> omega
  · intro j hj
    have hj := Finset.mem_range.1 hj
    simp only [Finset.mem_range]
    split_ifs <;> omega
  · intro k hk
    have hk := Finset.mem_range.1 hk
    split_ifs <;> omega
  · intro j hj
    have hj := Finset.mem_range.1 hj
    split_ifs <;> omega
  · intro k hk
    have hk := Finset.mem_range.1 hk
    by_cases h : i ≤ k
    · rw [if_pos h, if_pos h, map_mul, show xx N ^ k = xx N ^ i * xx N ^ (k - i) by
        rw [← pow_add]; congr 1; omega]
      ring
    · rw [if_neg h, if_neg h, map_neg, map_mul]
      have e : xx N ^ i * xx N ^ (k + N - i) = - xx N ^ k := by
        rw [← pow_add, show i + (k + N - i) = k + N by omega, pow_add, xx_pow]; ring
      calc _ = AdjoinRoot.of (cyc N) (a i) * AdjoinRoot.of (cyc N) (b (k + N - i)) * (- xx N ^ k) := by ring
        _ = _ := by rw [← e]; ring

theorem cls_sub (N : ℕ) (a b : ℕ → Torus) : cls N (fun k => a k - b k) = cls N a - cls N b := by
  unfold cls
  rw [← Finset.sum_sub_distrib]
  exact Finset.sum_congr rfl fun i _ => by rw [map_sub]; ring

theorem cls_one (N : ℕ) (hN : 0 < N) : cls N (fun i => if i = 0 then 1 else 0) = 1 := by
  unfold cls
  rw [Finset.sum_eq_single_of_mem 0 (Finset.mem_range.2 hN)]
  · beta_reduce
    rw [if_pos rfl, map_one, pow_zero, one_mul]
  · intro i _ hi
    beta_reduce
    rw [if_neg hi, map_zero, zero_mul]

theorem cls_single (N : ℕ) (hN : 0 < N) (c : Torus) :
    cls N (fun i => if i = 0 then c else 0) = AdjoinRoot.of (cyc N) c := by
  unfold cls
  rw [Finset.sum_eq_single_of_mem 0 (Finset.mem_range.2 hN)]
  · beta_reduce
    rw [if_pos rfl, pow_zero, mul_one]
  · intro i _ hi
    beta_reduce
    rw [if_neg hi, map_zero, zero_mul]

/-- Coefficients are determined by the class. -/
theorem cls_inj (N : ℕ) (f g : ℕ → Torus) (h : cls N f = cls N g) : ∀ i < N, f i = g i := by
  intro i hi
  have h0 : cls N (fun k => f k - g k) = 0 := by rw [cls_sub, h, sub_self]
  set d := fun k => f k - g k with hd
  set p : Torus[X] := ∑ i ∈ Finset.range N, C (d i) * X ^ i with hp
  have hm : AdjoinRoot.mk (cyc N) p = 0 := by
    rw [hp, map_sum, ← h0]
    unfold cls
    refine Finset.sum_congr rfl fun i _ => ?_
    rw [map_mul, map_pow, AdjoinRoot.mk_X, AdjoinRoot.mk_C]; rfl
  rw [AdjoinRoot.mk_eq_zero] at hm
  have : Nontrivial Torus := ⟨0, 1, by decide⟩
  have hmon : (cyc N).Monic := monic_X_pow_add_C (1 : Torus) (by omega)
  have hdeg : (cyc N).degree = N := degree_X_pow_add_C (by omega) (1 : Torus)
  have hlt : p.degree < N := by
    rw [degree_lt_iff_coeff_zero]
    intro m hm
    rw [hp, finset_sum_coeff]
    refine Finset.sum_eq_zero fun i hi => ?_
    rw [coeff_C_mul_X_pow, if_neg]
    have := Finset.mem_range.1 hi
    omega
  have hz : p = 0 := by
    by_contra hne
    exact hmon.not_dvd_of_degree_lt hne (by rw [hdeg]; exact hlt) hm
  have hc : p.coeff i = d i := by
    rw [hp, finset_sum_coeff, Finset.sum_eq_single_of_mem i (Finset.mem_range.2 hi)]
    · rw [coeff_C_mul_X_pow, if_pos rfl]
    · intro j _ hj
      rw [coeff_C_mul_X_pow, if_neg (Ne.symm hj)]
  rw [hz, coeff_zero] at hc
  exact sub_eq_zero.1 hc.symm

/-- `2^32 = 0` -/
theorem two_pow_zero (N : ℕ) : (2 : NegRing N) ^ 32 = 0 := by
  have h : ((2 : Torus) ^ 32) = 0 := by decide
  have := congrArg (AdjoinRoot.of (cyc N)) h
  rwa [map_pow, map_ofNat, map_zero] at this

/-- Squaring improves the congruence to `1`. -/
theorem sq_step {R : Type*} [CommRing R] (y : R) (j : ℕ) (hj : 1 ≤ j) (h : ∃ u, y = 1 + 2 ^ j * u) :
    ∃ u, y ^ 2 = 1 + 2 ^ (j + 1) * u := by
  obtain ⟨u, rfl⟩ := h
  obtain ⟨j, rfl⟩ := Nat.exists_eq_add_of_le hj
  exact ⟨u + 2 ^ j * u ^ 2, by ring⟩

theorem pow_pow_step {R : Type*} [CommRing R] (y : R) (h : ∃ u, y = 1 + 2 * u) (j : ℕ) :
    ∃ u, y ^ 2 ^ j = 1 + 2 ^ (j + 1) * u := by
  induction j with
  | zero => simpa using h
  | succ j ih =>
    obtain ⟨u, hu⟩ := sq_step _ (j + 1) (by omega) ih
    exact ⟨u, by rw [pow_succ, pow_mul, hu]⟩

/-- Modulo 2, raising to the power `N = 2^n` leaves the sum of the coefficients. -/
theorem pow_N_mod_two (n : ℕ) (f : ℕ → Torus) :
    ∃ u, cls (2 ^ n) f ^ 2 ^ n = AdjoinRoot.of (cyc (2 ^ n)) (∑ i ∈ Finset.range (2 ^ n), f i ^ 2 ^ n * (-1) ^ i)
      + 2 * u := by
  set R := NegRing (2 ^ n)
  set I : Ideal R := Ideal.span {(2 : R)}
  by_cases hI : I = ⊤
  · have : (1 : R) ∈ I := by rw [hI]; trivial
    obtain ⟨v, hv⟩ := Ideal.mem_span_singleton'.1 this
    refine ⟨v * (cls (2 ^ n) f ^ 2 ^ n - AdjoinRoot.of (cyc (2 ^ n)) (∑ i ∈ Finset.range (2 ^ n), f i ^ 2 ^ n * (-1) ^ i)), ?_⟩
    rw [← mul_assoc, mul_comm 2 v, hv]; ring
  have : Nontrivial (R ⧸ I) := Ideal.Quotient.nontrivial_iff.2 hI
  have h2 : ((2 : ℕ) : R ⧸ I) = 0 := by
    have : Ideal.Quotient.mk I (2 : R) = 0 := Ideal.Quotient.eq_zero_iff_mem.2 (Ideal.mem_span_singleton_self _)
    rwa [map_ofNat] at this
  have : CharP (R ⧸ I) 2 := CharTwo.of_one_ne_zero_of_two_eq_zero one_ne_zero (by exact_mod_cast h2)
  have : ExpChar (R ⧸ I) 2 := ExpChar.prime Nat.prime_two
  have key : Ideal.Quotient.mk I (cls (2 ^ n) f ^ 2 ^ n)
      = Ideal.Quotient.mk I (AdjoinRoot.of (cyc (2 ^ n)) (∑ i ∈ Finset.range (2 ^ n), f i ^ 2 ^ n * (-1) ^ i)) := by
    rw [map_pow]
    unfold cls
    rw [map_sum, sum_pow_char_pow, map_sum, map_sum]
    refine Finset.sum_congr rfl fun i _ => ?_
    rw [← map_pow, mul_pow, ← pow_mul, mul_comm i, pow_mul, xx_pow, map_mul (AdjoinRoot.of _), map_pow (AdjoinRoot.of _), map_pow (AdjoinRoot.of _),
      map_neg (AdjoinRoot.of _), map_one (AdjoinRoot.of _)]
  rw [Ideal.Quotient.eq] at key
  obtain ⟨u, hu⟩ := Ideal.mem_span_singleton'.1 key
  exact ⟨u, by rw [mul_comm 2 u, hu]; ring⟩

/-- That sum is odd when the sum of the coefficients is. -/
theorem odd_sum (n : ℕ) (f : ℕ → Torus) (h : (∑ i ∈ Finset.range (2 ^ n), (f i).toNat) % 2 = 1) :
    ∃ v : Torus, ∑ i ∈ Finset.range (2 ^ n), f i ^ 2 ^ n * (-1) ^ i = 1 + 2 * v := by
  have hf : ∀ i, f i = (((f i).toNat : ℤ) : Torus) := fun i => by
    rw [Int.cast_natCast]
    apply BitVec.eq_of_toNat_eq
    simp
  have hp : Fact (Nat.Prime 2) := ⟨Nat.prime_two⟩
  set z : ℤ := ∑ i ∈ Finset.range (2 ^ n), ((f i).toNat : ℤ) ^ 2 ^ n * (-1) ^ i with hz
  have hodd : ((z : ℤ) : ZMod 2) = 1 := by
    rw [hz]
    push_cast
    have h1 : ((∑ i ∈ Finset.range (2 ^ n), (f i).toNat : ℕ) : ZMod 2) = 1 := by
      rw [← Nat.mod_add_div (∑ i ∈ Finset.range (2 ^ n), (f i).toNat) 2, h]
      push_cast
      rw [show (2 : ZMod 2) = 0 from rfl]; ring
    refine Eq.trans ?_ h1
    push_cast
    refine Finset.sum_congr rfl fun i _ => ?_
    rw [ZMod.pow_card_pow, show (-1 : ZMod 2) = 1 from rfl, one_pow, mul_one]
  have ho : z % 2 = 1 := by
    have : ((z - 1 : ℤ) : ZMod 2) = 0 := by push_cast; rw [hodd, sub_self]
    rw [ZMod.intCast_zmod_eq_zero_iff_dvd] at this
    omega
  refine ⟨((z / 2 : ℤ) : Torus), ?_⟩
  have e : ((z : ℤ) : Torus) = 1 + 2 * ((z / 2 : ℤ) : Torus) := by
    conv_lhs => rw [← Int.emod_add_mul_ediv z 2, ho]
    push_cast; rfl
  rw [← e, hz]
  push_cast
  refine Finset.sum_congr rfl fun i _ => ?_
  conv_lhs => rw [hf i]
  push_cast
  rfl

/-- A polynomial whose coefficient sum is odd has order dividing `N * 2^31`. -/
theorem cls_pow_eq_one (n : ℕ) (f : ℕ → Torus) (h : (∑ i ∈ Finset.range (2 ^ n), (f i).toNat) % 2 = 1) :
    cls (2 ^ n) f ^ 2 ^ (n + 31) = 1 := by
  obtain ⟨u, hu⟩ := pow_N_mod_two n f
  obtain ⟨v, hv⟩ := odd_sum n f h
  have h1 : ∃ w, cls (2 ^ n) f ^ 2 ^ n = 1 + 2 * w :=
    ⟨AdjoinRoot.of (cyc (2 ^ n)) v + u, by rw [hu, hv, map_add, map_mul, map_one, map_ofNat]; ring⟩
  obtain ⟨w, hw⟩ := pow_pow_step _ h1 31
  rw [pow_add, pow_mul, hw, two_pow_zero]; ring

end GoTfhe
