import Verif.Lemmas.NegRing
import Verif.Lemmas.Decomp
import Mathlib.RingTheory.Nilpotent.Basic

/-!
# What multiples of a polynomial fill

In `(Z/2^32)[X]/(X^N+1)` with `N` a power of two, the multiples of a polynomial that has a coefficient not divisible by
`2^e` include all polynomials with coefficients divisible by `2^e`.
-/

namespace GoTfhe

open Polynomial

theorem cls_add (N : ℕ) (a b : ℕ → Torus) : cls N (fun k => a k + b k) = cls N a + cls N b := by
  unfold cls
  rw [← Finset.sum_add_distrib]
  exact Finset.sum_congr rfl fun i _ => by rw [map_add]; ring

theorem cls_smul (N : ℕ) (c : Torus) (a : ℕ → Torus) :
    cls N (fun k => c * a k) = AdjoinRoot.of (cyc N) c * cls N a := by
  unfold cls
  rw [Finset.mul_sum]
  exact Finset.sum_congr rfl fun i _ => by rw [map_mul]; ring

theorem cls_surj (N : ℕ) (hN : 0 < N) (r : NegRing N) : ∃ f, r = cls N f := by
  have : Nontrivial Torus := ⟨0, 1, by decide⟩
  have hmon : (cyc N).Monic := monic_X_pow_add_C (1 : Torus) (by omega)
  have hdeg : (cyc N).degree = N := degree_X_pow_add_C (by omega) (1 : Torus)
  obtain ⟨p, rfl⟩ := AdjoinRoot.mk_surjective r
  refine ⟨fun i => (p %ₘ cyc N).coeff i, ?_⟩
  have h1 : AdjoinRoot.mk (cyc N) p = AdjoinRoot.mk (cyc N) (p %ₘ cyc N) := by
    rw [AdjoinRoot.mk_eq_mk]
    exact ⟨p /ₘ cyc N, by linear_combination -(modByMonic_add_div p (cyc N))⟩
  have h2 : (p %ₘ cyc N).degree < N := by
    rw [← hdeg]; exact degree_modByMonic_lt p hmon
  have h3 : (p %ₘ cyc N).natDegree < N := by
    by_cases hz : p %ₘ cyc N = 0
    · rw [hz, natDegree_zero]; exact hN
    · exact (natDegree_lt_iff_degree_lt hz).2 h2
  rw [h1]
  conv_lhs => rw [as_sum_range' (p %ₘ cyc N) N h3]
  rw [map_sum]
  unfold cls
  refine Finset.sum_congr rfl fun i _ => ?_
  rw [← C_mul_X_pow_eq_monomial, map_mul, map_pow, AdjoinRoot.mk_X, AdjoinRoot.mk_C]
  rfl

theorem of_two (N : ℕ) : AdjoinRoot.of (cyc N) (2 : Torus) = 2 := map_ofNat _ 2

/-- Multiples of 2 have even coefficients, and conversely. -/
theorem cls_two_dvd (N : ℕ) (hN : 0 < N) (f : ℕ → Torus) :
    (∃ r, cls N f = 2 * r) ↔ ∀ k < N, (f k).toNat % 2 = 0 := by
  constructor
  · rintro ⟨r, hr⟩ k hk
    obtain ⟨g, rfl⟩ := cls_surj N hN r
    rw [← of_two, ← cls_smul] at hr
    rw [cls_inj N _ _ hr k hk]
    simp only [BitVec.toNat_mul]
    rw [show (2 : Torus).toNat = 2 from rfl]
    omega
  · intro h
    refine ⟨cls N fun k => ((f k).toNat / 2 : ℕ), ?_⟩
    rw [← of_two, ← cls_smul]
    refine cls_congr _ _ _ fun k hk => ?_
    apply BitVec.eq_of_toNat_eq
    have := h k hk
    have := (f k).isLt
    simp only [BitVec.toNat_mul, natCast_eq, BitVec.toNat_ofNat]
    rw [show (2 : Torus).toNat = 2 from rfl]
    omega

theorem cls_sum_xx (N : ℕ) : (1 - xx N) * cls N (fun _ => 1) = 2 := by
  have h : cls N (fun _ => 1) = ∑ i ∈ Finset.range N, xx N ^ i := by
    unfold cls
    exact Finset.sum_congr rfl fun i _ => by rw [map_one, one_mul]
  rw [h, mul_neg_geom_sum, xx_pow]
  ring

/-- Coefficients of `(1+X) f`. -/
theorem cls_one_add_xx (N : ℕ) (hN : 0 < N) (f : ℕ → Torus) :
    cls N (fun k => f k + if k = 0 then -f (N - 1) else f (k - 1)) = (1 + xx N) * cls N f := by
  obtain ⟨n, rfl⟩ : ∃ n, N = n + 1 := ⟨N - 1, by omega⟩
  rw [cls_add, add_mul, one_mul]
  congr 1
  unfold cls
  rw [Finset.sum_range_succ', Finset.mul_sum, Finset.sum_range_succ]
  simp only [Nat.add_sub_cancel, if_true, pow_zero, mul_one, map_neg, Nat.succ_ne_zero, if_false]
  congr 1
  · refine Finset.sum_congr rfl fun i _ => ?_
    rw [pow_succ]; ring
  · have := xx_pow (n + 1)
    rw [pow_succ] at this
    calc _ = AdjoinRoot.of (cyc (n + 1)) (f n) * (-1) := by ring
      _ = _ := by rw [← this]; ring

/-- `1 + X` and `1 - X` are nilpotent modulo 2. -/
theorem one_add_xx_pow (n : ℕ) (hn : 1 ≤ n) (ε : Torus) (hε : ε = 1 ∨ ε = -1) :
    ∃ u, (1 + AdjoinRoot.of (cyc (2 ^ n)) ε * xx (2 ^ n)) ^ 2 ^ n = 2 * u := by
  have hN : 2 ≤ 2 ^ n := by
    calc 2 = 2 ^ 1 := rfl
      _ ≤ 2 ^ n := Nat.pow_le_pow_right (by norm_num) hn
  set f : ℕ → Torus := fun i => if i = 0 then 1 else if i = 1 then ε else 0 with hf
  have hc : cls (2 ^ n) f = 1 + AdjoinRoot.of (cyc (2 ^ n)) ε * xx (2 ^ n) := by
    unfold cls
    rw [← Finset.sum_subset (s₁ := {0, 1})]
    · rw [Finset.sum_pair (by norm_num)]
      simp only [hf, if_true, one_ne_zero, if_false, map_one, pow_zero, mul_one, pow_one]
    · intro x hx
      simp only [Finset.mem_insert, Finset.mem_singleton] at hx
      exact Finset.mem_range.2 (by omega)
    · intro x _ hx
      simp only [Finset.mem_insert, Finset.mem_singleton, not_or] at hx
      simp only [hf]
      rw [if_neg hx.1, if_neg hx.2, map_zero, zero_mul]
  obtain ⟨u, hu⟩ := pow_N_mod_two n f
  have hs : ∑ i ∈ Finset.range (2 ^ n), f i ^ 2 ^ n * (-1) ^ i = 0 := by
    rw [← Finset.sum_subset (s₁ := {0, 1})]
    · rw [Finset.sum_pair (by norm_num)]
      simp only [hf, if_true, one_pow, pow_zero, mul_one, one_ne_zero, if_false, pow_one]
      have : ε ^ 2 ^ n = 1 := by
        obtain ⟨m, rfl⟩ : ∃ m, n = m + 1 := ⟨n - 1, by omega⟩
        rw [pow_succ 2, mul_comm, pow_mul]
        rw [show ε ^ 2 = 1 by rcases hε with rfl | rfl <;> decide, one_pow]
      rw [this]; ring
    · intro x hx
      simp only [Finset.mem_insert, Finset.mem_singleton] at hx
      exact Finset.mem_range.2 (by omega)
    · intro x _ hx
      simp only [Finset.mem_insert, Finset.mem_singleton, not_or] at hx
      simp only [hf]
      rw [if_neg hx.1, if_neg hx.2, zero_pow (by positivity), zero_mul]
  rw [hs, map_zero, zero_add, hc] at hu
  exact ⟨u, hu⟩

/-- A polynomial with an odd coefficient divides 2. -/
theorem dvd_two (n : ℕ) (hn : 1 ≤ n) (f : ℕ → Torus) (h : ∃ k < 2 ^ n, (f k).toNat % 2 = 1) :
    ∃ q, cls (2 ^ n) f * q = 2 := by
  have hN : 0 < 2 ^ n := by positivity
  set R := NegRing (2 ^ n)
  set x : R := xx (2 ^ n)
  have h0 : ¬ ∃ r, (1 + x) ^ 0 * cls (2 ^ n) f = 2 * r := by
    rw [pow_zero, one_mul, cls_two_dvd _ hN]
    intro h'
    obtain ⟨k, hk, ho⟩ := h
    have := h' k hk
    omega
  have hend : ∃ r, (1 + x) ^ 2 ^ n * cls (2 ^ n) f = 2 * r := by
    obtain ⟨u, hu⟩ := one_add_xx_pow n hn 1 (Or.inl rfl)
    rw [map_one, one_mul] at hu
    exact ⟨u * cls (2 ^ n) f, by rw [hu]; ring⟩
  obtain ⟨m, hm, hm'⟩ : ∃ m, (¬ ∃ r, (1 + x) ^ m * cls (2 ^ n) f = 2 * r) ∧
      ∃ r, (1 + x) ^ (m + 1) * cls (2 ^ n) f = 2 * r := by
    by_contra hc
    push Not at hc
    have : ∀ m, ¬ ∃ r, (1 + x) ^ m * cls (2 ^ n) f = 2 * r := by
      intro m
      induction m with
      | zero => exact h0
      | succ m ih =>
        rintro ⟨r, hr⟩
        exact hc m (fun r hr => ih ⟨r, hr⟩) r hr
    exact this _ hend
  obtain ⟨p, hp⟩ := cls_surj _ hN ((1 + x) ^ m * cls (2 ^ n) f)
  rw [hp, cls_two_dvd _ hN] at hm
  rw [pow_succ', mul_assoc, hp, ← cls_one_add_xx _ hN, cls_two_dvd _ hN] at hm'
  -- all coefficients have the same parity, so all are odd
  have hstep : ∀ k, k + 1 < 2 ^ n → (p (k + 1)).toNat % 2 = (p k).toNat % 2 := by
    intro k hk
    have := hm' (k + 1) hk
    rw [if_neg (by omega), Nat.add_sub_cancel, BitVec.toNat_add] at this
    omega
  have hall : ∀ k < 2 ^ n, (p k).toNat % 2 = (p 0).toNat % 2 := by
    intro k
    induction k with
    | zero => intro _; rfl
    | succ k ih => intro hk; rw [hstep k hk, ih (by omega)]
  have hodd : ∀ k < 2 ^ n, (p k).toNat % 2 = 1 := by
    intro k hk
    rw [hall k hk]
    by_contra hne
    exact hm fun j hj => by rw [hall j hj]; omega
  obtain ⟨w, hw⟩ : ∃ w, cls (2 ^ n) (fun k => p k - 1) = 2 * w := by
    rw [cls_two_dvd _ hN]
    intro k hk
    have := hodd k hk
    have := (p k).isLt
    rw [BitVec.toNat_sub]
    rw [show (1 : Torus).toNat = 1 from rfl]
    omega
  have hw' : cls (2 ^ n) p = cls (2 ^ n) (fun _ => 1) + 2 * w := by
    rw [← hw, cls_sub]; ring
  have hnil : IsNilpotent (1 - x) := by
    obtain ⟨u, hu⟩ := one_add_xx_pow n hn (-1) (Or.inr rfl)
    rw [map_neg, map_one, neg_one_mul, ← sub_eq_add_neg] at hu
    refine ⟨2 ^ n * 32, ?_⟩
    rw [pow_mul, hu, mul_pow, two_pow_zero, zero_mul]
  have hunit : IsUnit (1 + (1 - x) * w) := by
    rw [add_comm]
    exact IsNilpotent.isUnit_add_one ((Commute.all (1 - x) w).isNilpotent_mul_right hnil)
  obtain ⟨v, hv⟩ := hunit.exists_right_inv
  refine ⟨(1 + x) ^ m * (1 - x) * v, ?_⟩
  calc cls (2 ^ n) f * ((1 + x) ^ m * (1 - x) * v) = (1 - x) * ((1 + x) ^ m * cls (2 ^ n) f) * v := by ring
    _ = ((1 - x) * cls (2 ^ n) (fun _ => 1) + 2 * ((1 - x) * w)) * v := by rw [hp, hw']; ring
    _ = 2 * ((1 + (1 - x) * w) * v) := by rw [cls_sum_xx _]; ring
    _ = 2 := by rw [hv, mul_one]

/-- A polynomial with a coefficient not divisible by `2^e` divides `2^e`. -/
theorem dvd_two_pow (n : ℕ) (hn : 1 ≤ n) (e : ℕ) (f : ℕ → Torus) (h : ∃ k < 2 ^ n, ¬ 2 ^ e ∣ (f k).toNat) :
    ∃ q, cls (2 ^ n) f * q = 2 ^ e := by
  induction e generalizing f with
  | zero =>
    obtain ⟨k, -, hk⟩ := h
    exact absurd (one_dvd _) hk
  | succ e ih =>
    by_cases ho : ∃ k < 2 ^ n, (f k).toNat % 2 = 1
    · obtain ⟨q, hq⟩ := dvd_two n hn f ho
      exact ⟨q * 2 ^ e, by rw [← mul_assoc, hq]; ring⟩
    · push Not at ho
      set g : ℕ → Torus := fun k => ((f k).toNat / 2 : ℕ) with hg
      have hgn : ∀ k, (g k).toNat = (f k).toNat / 2 := by
        intro k
        have := (f k).isLt
        simp only [hg, natCast_eq, BitVec.toNat_ofNat]
        omega
      have hfg : cls (2 ^ n) f = 2 * cls (2 ^ n) g := by
        rw [← of_two, ← cls_smul]
        refine cls_congr _ _ _ fun k hk => ?_
        apply BitVec.eq_of_toNat_eq
        have := ho k hk
        have := (f k).isLt
        rw [BitVec.toNat_mul, hgn]
        rw [show (2 : Torus).toNat = 2 from rfl]
        omega
      obtain ⟨q, hq⟩ := ih g (by
        obtain ⟨k, hk, hd⟩ := h
        refine ⟨k, hk, fun hd' => hd ?_⟩
        rw [hgn] at hd'
        obtain ⟨c, hc⟩ := hd'
        refine ⟨c, ?_⟩
        have := ho k hk
        rw [pow_succ, mul_comm (2 ^ e) 2, mul_assoc, ← hc]
        omega)
      exact ⟨q, by rw [hfg, mul_assoc, hq]; ring⟩

/-- The multiples of a polynomial with a coefficient not divisible by `2^e` contain everything divisible by `2^e`. -/
theorem negMul_surj (n : ℕ) (hn : 1 ≤ n) (e : ℕ) (f : ℕ → Torus) (h : ∃ k < 2 ^ n, ¬ 2 ^ e ∣ (f k).toNat)
    (v : ℕ → Torus) : ∃ m : ℕ → Torus, ∀ k < 2 ^ n, negMul (2 ^ n) f m k = 2 ^ e * v k := by
  obtain ⟨q, hq⟩ := dvd_two_pow n hn e f h
  obtain ⟨m, hm⟩ := cls_surj (2 ^ n) (by positivity) (q * cls (2 ^ n) v)
  refine ⟨m, cls_inj _ _ _ ?_⟩
  rw [cls_negMul, ← hm, ← mul_assoc, hq, cls_smul, map_pow, of_two]

end GoTfhe
