import Verif.Spec.KeyRecovery
import Verif.Lemmas.NegRing
import Verif.Lemmas.Trgsw

/-!
# Why the adversary of `Verif.Spec.KeyRecovery` works
-/

namespace GoTfhe

theorem cls_ringMul (N : ℕ) (a b : List Torus) : cls N (at' (ringMul N a b)) = cls N (at' a) * cls N (at' b) := by
  rw [← cls_negMul]
  exact cls_congr _ _ _ fun i hi => at'_tab _ _ _ hi

theorem cls_constPoly (N : ℕ) (hN : 0 < N) (c : Torus) :
    cls N (at' (constPoly N c)) = AdjoinRoot.of (cyc N) c := by
  rw [← cls_single N hN]
  exact cls_congr _ _ _ fun i hi => at'_tab _ _ _ hi

theorem cls_powPoly (N : ℕ) (hN : 0 < N) (a : List Torus) (m : ℕ) :
    cls N (at' (powPoly N a m)) * cls N (at' a) = cls N (at' a) ^ 2 ^ m := by
  induction m with
  | zero => rw [powPoly, cls_constPoly N hN, map_one, one_mul, pow_zero, pow_one]
  | succ m ih =>
    rw [powPoly, cls_ringMul, cls_ringMul, pow_succ, pow_mul, ← ih]; ring

theorem powPoly_inv (n : ℕ) (a : List Torus) (h : (∑ i ∈ Finset.range (2 ^ n), (at' a i).toNat) % 2 = 1) :
    cls (2 ^ n) (at' (powPoly (2 ^ n) a (n + 31))) * cls (2 ^ n) (at' a) = 1 := by
  rw [cls_powPoly _ (by positivity), cls_pow_eq_one n _ h]

theorem two_mul_ne (x : Torus) : 2 * x ≠ 1 ∧ 2 * x ≠ -1 := by
  constructor <;> intro h
  · have h := congrArg (fun y : Torus => y.toNat % 2) h
    simp only [BitVec.toNat_mul] at h
    have e : ((1 : Torus).toNat) = 1 := rfl
    have e2 : ((2 : Torus).toNat) = 2 := rfl
    rw [e, e2] at h
    omega
  · have h := congrArg (fun y : Torus => y.toNat % 2) h
    simp only [BitVec.toNat_mul] at h
    have e : ((-1 : Torus).toNat) = 4294967295 := rfl
    have e2 : ((2 : Torus).toNat) = 2 := rfl
    rw [e, e2] at h
    omega

theorem two_pow_ne_zero_torus (j : ℕ) (hj : j < 32) : ((2 ^ j : ℕ) : Torus) ≠ 0 := by
  intro h
  have h := congrArg BitVec.toNat h
  have e : ((2 ^ j : ℕ) : Torus).toNat = 2 ^ j := by
    have : ((2 ^ j : ℕ) : Torus) = BitVec.ofNat 32 (2 ^ j) := rfl
    rw [this, BitVec.toNat_ofNat, Nat.mod_eq_of_lt (Nat.pow_lt_pow_right (by norm_num) hj)]
  rw [e] at h
  have : 0 < 2 ^ j := by positivity
  have h0 : (0 : Torus).toNat = 0 := rfl
  omega

/-- The ring key is recovered from one row without noise. -/
theorem recoverRing_eq (n b : ℕ) (hb : 1 ≤ b) (hb' : b ≤ 31) (A B s : List Torus) (hs : s.length = 2 ^ n)
    (hbin : IsBinary s) (p : Torus) (hp : p = 0 ∨ p = 1)
    (hodd : (∑ i ∈ Finset.range (2 ^ n), (at' A i).toNat) % 2 = 1)
    (hB : ∀ k < 2 ^ n, at' B k = negMul (2 ^ n) (at' A) (at' s) k
      + if k = 0 then p * ((2 ^ (32 - b) : ℕ) : Torus) else 0) :
    recoverRing n b A B = s := by
  set N := 2 ^ n with hN
  have hN0 : 0 < N := by positivity
  set g : Torus := ((2 ^ (32 - b) : ℕ) : Torus) with hg
  set inv := powPoly N A (n + 31) with hinv
  have hI : cls N (at' inv) * cls N (at' A) = 1 := powPoly_inv n A hodd
  have hcB : cls N (at' B) = cls N (at' A) * cls N (at' s) + AdjoinRoot.of (cyc N) (p * g) := by
    rw [← cls_negMul, ← cls_single N hN0]
    have := cls_sub N (at' B) (fun i => if i = 0 then p * g else 0)
    rw [eq_comm, ← eq_sub_iff_add_eq, ← this]
    exact cls_congr _ _ _ fun k hk => by rw [hB k hk]; ring
  have list_eq : ∀ f : ℕ → Torus, cls N f = cls N (at' s) → tab N f = s := by
    intro f hf
    have hi := cls_inj N _ _ hf
    symm
    apply eq_tab_of _ _ _ hs
    intro j hj
    rw [hi j (by omega), at'_of_lt _ _ hj]
  set c0 := ringMul N inv B with hc0
  have hcc0 : cls N (at' c0) = cls N (at' s) + cls N (at' inv) * AdjoinRoot.of (cyc N) (p * g) := by
    rw [hc0, cls_ringMul, hcB, mul_add, ← mul_assoc, hI, one_mul]
  have hR : recoverRing n b A B
      = if ∀ x ∈ c0, x = 0 ∨ x = 1 then c0
        else ringMul N inv (tab N fun k => at' B k - if k = 0 then g else 0) := rfl
  rw [hR]
  rcases hp with rfl | rfl
  · have e : c0 = s := by
      apply list_eq
      have h1 := hcc0
      rw [zero_mul, map_zero, mul_zero, add_zero] at h1
      rw [← h1]
      exact (cls_congr _ _ _ fun k hk => at'_tab _ _ _ hk).symm
    rw [if_pos (by rw [e]; exact hbin), e]
  · rw [one_mul] at hcc0 hcB
    have hne : ¬ ∀ x ∈ c0, x = 0 ∨ x = 1 := by
      intro hc
      -- the difference of the candidates is a multiple of two, so it is zero
      have hd : cls N (fun k => at' c0 k - at' s k) = cls N (fun k => at' inv k * g) := by
        rw [cls_sub, hcc0]
        have e1 : cls N (fun k => at' inv k * g) = cls N (at' inv) * AdjoinRoot.of (cyc N) g := by
          unfold cls
          rw [Finset.sum_mul]
          exact Finset.sum_congr rfl fun i _ => by rw [map_mul]; ring
        rw [e1]; ring
      have hd := cls_inj N _ _ hd
      have hz : ∀ k < N, at' inv k * g = 0 := by
        intro k hk
        have h1 := hd k hk
        have hb1 : at' c0 k = 0 ∨ at' c0 k = 1 := by
          rw [at'_of_lt _ _ (by rw [hc0]; simpa [ringMul] using hk)]
          exact hc _ (List.getElem_mem _)
        have hb2 : at' s k = 0 ∨ at' s k = 1 := by
          rw [at'_of_lt _ _ (by omega)]
          exact hbin _ (List.getElem_mem _)
        have h2 : at' inv k * g = 2 * (at' inv k * ((2 ^ (31 - b) : ℕ) : Torus)) := by
          rw [hg, show 32 - b = (31 - b) + 1 by omega, pow_succ]
          push_cast
          ring
        obtain ⟨n1, n2⟩ := two_mul_ne (at' inv k * ((2 ^ (31 - b) : ℕ) : Torus))
        rw [← h2, ← h1] at n1 n2
        rw [← h1]
        rcases hb1 with e1 | e1 <;> rcases hb2 with e2 | e2 <;> rw [e1, e2] at n1 n2 ⊢
        · rfl
        · exact absurd (by rw [zero_sub]) n2
        · exact absurd (by rw [sub_zero]) n1
        · rfl
      have hz2 : cls N (at' inv) * AdjoinRoot.of (cyc N) g = 0 := by
        unfold cls
        rw [Finset.sum_mul]
        refine Finset.sum_eq_zero fun i hi => ?_
        rw [mul_right_comm, ← map_mul, hz i (Finset.mem_range.1 hi), map_zero, zero_mul]
      have hz3 : AdjoinRoot.of (cyc N) g = 0 := by
        have := congrArg (fun z => cls N (at' A) * z) hz2
        simp only [mul_zero] at this
        rw [← mul_assoc, mul_comm (cls N (at' A)), hI, one_mul] at this
        exact this
      have hz4 : cls N (fun i => if i = 0 then g else 0) = cls N (fun i => if i = 0 then 0 else 0) := by
        rw [cls_single N hN0, cls_single N hN0, hz3, map_zero]
      have := cls_inj N _ _ hz4 0 hN0
      simp only [if_true] at this
      exact two_pow_ne_zero_torus (32 - b) (by omega) this
    rw [if_neg hne]
    apply list_eq
    rw [cls_negMul]
    have e : cls N (at' (tab N fun k => at' B k - if k = 0 then g else 0)) = cls N (at' A) * cls N (at' s) := by
      rw [cls_congr N _ (fun k => at' B k - (fun k => if k = 0 then g else 0) k) fun k hk => at'_tab _ _ _ hk,
        cls_sub, cls_single N hN0, hcB]
      ring
    rw [e, ← mul_assoc, hI, one_mul]

end GoTfhe
