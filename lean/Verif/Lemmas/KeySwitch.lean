import Verif.Lemmas.Decomp
import Verif.Model.KeySwitch
import Verif.Spec.Keys
import Mathlib.Algebra.Order.BigOperators.Group.Finset

/-! # Key switching -/

namespace GoTfhe

/-- Loops that subtract a vector in every step. -/
theorem forRange_subVec (n m : ℕ) (o : List Torus) (ho : o.length = m) (D : ℕ → ℕ → Torus)
    (body : ℕ → List Torus → Option (List Torus))
    (hb : ∀ i < n, ∀ c : List Torus, c.length = m → body i c = some (tab m fun x => at' c x - D i x)) :
    forRange 0 n o body = some (tab m fun x => at' o x - ∑ i ∈ Finset.range n, D i x) := by
  have := forRange_eq n body (fun k => tab m fun x => at' o x - ∑ i ∈ Finset.range k, D i x) (by
    intro i hi
    rw [hb i hi _ (length_tab _ _)]
    congr 1
    apply tab_congr
    intro x hx
    rw [at'_tab _ _ _ hx, Finset.sum_range_succ]
    ring)
  rw [← this]
  congr 1
  rw [← tab_at' o, ho]
  apply tab_congr
  intro x hx
  simp [at'_tab _ _ _ hx]

theorem phase_sub (n : ℕ) (f g : ℕ → Torus) (s : List Torus) :
    phase n (tab (n + 1) fun x => f x - g x) s
      = phase n (tab (n + 1) f) s - phase n (tab (n + 1) g) s := by
  unfold phase
  rw [at'_tab _ _ _ (by omega), at'_tab _ _ _ (by omega), at'_tab _ _ _ (by omega)]
  have : ∑ i ∈ Finset.range n, at' (tab (n + 1) fun x => f x - g x) i * at' s i
      = ∑ i ∈ Finset.range n, at' (tab (n + 1) f) i * at' s i
        - ∑ i ∈ Finset.range n, at' (tab (n + 1) g) i * at' s i := by
    rw [← Finset.sum_sub_distrib]
    apply Finset.sum_congr rfl
    intro i hi
    have := Finset.mem_range.1 hi
    rw [at'_tab _ _ _ (by omega), at'_tab _ _ _ (by omega), at'_tab _ _ _ (by omega)]
    ring
  rw [this]; ring

theorem phase_congr (n : ℕ) (c c' s : List Torus) (h : ∀ x ≤ n, at' c x = at' c' x) :
    phase n c s = phase n c' s := by
  unfold phase
  rw [h n (le_refl _)]
  congr 1
  apply Finset.sum_congr rfl
  intro i hi
  rw [h i (by have := Finset.mem_range.1 hi; omega)]

theorem phase_finset_sum {ι : Type*} (n : ℕ) (S : Finset ι) (f : ι → ℕ → Torus) (s : List Torus) :
    phase n (tab (n + 1) fun x => ∑ i ∈ S, f i x) s = ∑ i ∈ S, phase n (tab (n + 1) (f i)) s := by
  unfold phase
  rw [at'_tab _ _ _ (by omega)]
  have : ∑ x ∈ Finset.range n, at' (tab (n + 1) fun x => ∑ i ∈ S, f i x) x * at' s x
      = ∑ i ∈ S, ∑ x ∈ Finset.range n, at' (tab (n + 1) (f i)) x * at' s x := by
    rw [Finset.sum_comm]
    apply Finset.sum_congr rfl
    intro x hx
    have := Finset.mem_range.1 hx
    rw [at'_tab _ _ _ (by omega), Finset.sum_mul]
    apply Finset.sum_congr rfl
    intro i _
    rw [at'_tab _ _ _ (by omega)]
  rw [this, ← Finset.sum_sub_distrib]
  apply Finset.sum_congr rfl
  intro i _
  rw [at'_tab _ _ _ (by omega)]

/-- The digit used for coefficient `i`, level `j`. -/
def ksDigit (b T : ℕ) (src : List Torus) (i j : ℕ) : ℕ :=
  (at' src i + ((2 ^ (31 - b * T) : ℕ) : Torus)).toNat / 2 ^ (32 - (j + 1) * b) % 2 ^ b

/-- Closed form of the key switching loop. -/
theorem keySwitchLoop_eq (n b T m : ℕ) (src : List Torus) (ksk : List (List Torus)) (out : List Torus)
    (hb : 1 ≤ b) (hT : b * T ≤ 31) (hsrc : n ≤ src.length) (ho : out.length = m)
    (hk : 2 ^ b * T * n ≤ ksk.length) (hrow : ∀ e ∈ ksk, m ≤ e.length) :
    keySwitchLoop n b T src ksk out = some (tab m fun x => at' out x -
      ∑ i ∈ Finset.range n, ∑ j ∈ Finset.range T,
        if ksDigit b T src i j ≠ 0 then at' (entry ksk (2 ^ b * T * i + 2 ^ b * j + ksDigit b T src i j)) x
        else 0) := by
  unfold keySwitchLoop
  simp only
  rw [if_neg (by omega)]
  apply forRange_subVec n m out ho (fun i x => ∑ j ∈ Finset.range T,
        if ksDigit b T src i j ≠ 0 then at' (entry ksk (2 ^ b * T * i + 2 ^ b * j + ksDigit b T src i j)) x
        else 0)
  intro i hi c hc
  rw [rd_at' src i (by omega)]
  simp only [Option.bind_eq_bind, Option.bind_some]
  apply forRange_subVec T m c hc (fun j x =>
    if ksDigit b T src i j ≠ 0 then at' (entry ksk (2 ^ b * T * i + 2 ^ b * j + ksDigit b T src i j)) x
        else 0)
  intro j hj c hc
  have hjb : (j + 1) * b ≤ b * T := by
    rw [Nat.mul_comm b T]; exact Nat.mul_le_mul_right _ hj
  have hb31 : b ≤ 31 := by nlinarith
  rw [if_neg (by omega)]
  have hdig : ((at' src i + 1#32 <<< (32 - (1 + b * T))) >>> (32 - (j + 1) * b) &&& (1#32 <<< b - 1))
      = ((ksDigit b T src i j : ℕ) : Torus) := by
    rw [← natCast_toNat ((at' src i + 1#32 <<< (32 - (1 + b * T))) >>> (32 - (j + 1) * b) &&& (1#32 <<< b - 1)),
      shr_mask_toNat _ _ _ (by omega), shl_one_eq, show 32 - (1 + b * T) = 31 - b * T by omega]
    rfl
  have hlt : ksDigit b T src i j < 2 ^ b := Nat.mod_lt _ (by positivity)
  have hpow : (2 : ℕ) ^ b ≤ 2 ^ 31 := pow_le_pow_right₀ (by norm_num) hb31
  have hnat : ((ksDigit b T src i j : ℕ) : Torus).toNat = ksDigit b T src i j := by
    rw [natCast_eq, BitVec.toNat_ofNat, Nat.mod_eq_of_lt (by omega)]
  rw [hdig]
  have hz : ((ksDigit b T src i j : ℕ) : Torus) = 0 ↔ ksDigit b T src i j = 0 := by
    constructor
    · intro h
      have := congrArg BitVec.toNat h
      rw [hnat] at this
      simpa using this
    · intro h; rw [h]; rfl
  by_cases h0 : ksDigit b T src i j = 0
  · rw [if_neg (by rw [not_not]; exact hz.2 h0)]
    congr 1
    conv_lhs => rw [← tab_at' c, hc]
    apply tab_congr
    intro x _
    rw [if_neg (by simpa using h0), sub_zero]
  · rw [if_pos (fun h => h0 (hz.1 h)), hnat, Nat.one_shiftLeft]
    set idx := 2 ^ b * T * i + 2 ^ b * j + ksDigit b T src i j with hidx
    have hidl : idx < ksk.length := by
      have h1 : 2 ^ b * j + ksDigit b T src i j < 2 ^ b * T := by
        calc 2 ^ b * j + ksDigit b T src i j < 2 ^ b * j + 2 ^ b := by omega
          _ = 2 ^ b * (j + 1) := by ring
          _ ≤ 2 ^ b * T := Nat.mul_le_mul_left _ hj
      have h2 : 2 ^ b * T * i + 2 ^ b * T ≤ 2 ^ b * T * n := by
        calc 2 ^ b * T * i + 2 ^ b * T = 2 ^ b * T * (i + 1) := by ring
          _ ≤ 2 ^ b * T * n := Nat.mul_le_mul_left _ hi
      omega
    have he : entry ksk idx = ksk[idx] := by
      unfold entry; rw [List.getD_eq_getElem?_getD, List.getElem?_eq_getElem hidl]; rfl
    rw [hc]
    have hfill := forRange_fill m c (fun x => at' c x - at' (entry ksk idx) x) (by omega)
      (fun x out => (rd ksk idx).bind fun e => (rd e x).bind fun cc => (rd out x).bind fun o => wr out x (o - cc))
      (by
        intro x hx
        have h1 : x < (ksk[idx]).length := lt_of_lt_of_le hx (hrow _ (List.getElem_mem _))
        rw [rd_eq ksk idx hidl, Option.bind_some, rd_at' _ _ h1, Option.bind_some]
        have h2 : rd (filled x (fun x => at' c x - at' (entry ksk idx) x) c) x = some (at' c x) := by
          unfold rd
          rw [filled_getElem? _ _ _ (by omega), if_neg (by omega)]
          exact rd_at' c x (by omega)
        rw [h2, Option.bind_some, he])
    rw [hfill, filled_full' _ _ _ hc]
    congr 1
    apply tab_congr
    intro x _
    rw [if_pos h0]

theorem rdLast_eq (src : List Torus) (n : ℕ) (h : src.length = n + 1) : rdLast src = some (at' src n) := by
  unfold rdLast
  rw [if_neg (by omega), h]
  exact rd_at' src n (by omega)

/-- What key switching returns. -/
def ksOut (n0 n b T : ℕ) (src : List Torus) (ksk : List (List Torus)) : List Torus :=
  tab (n0 + 1) fun x => (if x = n0 then at' src n else 0) -
      ∑ i ∈ Finset.range n, ∑ j ∈ Finset.range T,
        if ksDigit b T src i j ≠ 0 then at' (entry ksk (2 ^ b * T * i + 2 ^ b * j + ksDigit b T src i j)) x
        else 0

theorem identityKeySwitchingAssign_eq (P : Params) (src : List Torus) (ksk : List (List Torus))
    (out : List Torus) (hb : 1 ≤ P.trgswLv1.BASEBIT) (hT : P.trgswLv1.BASEBIT * P.trgswLv1.IKS_T ≤ 31)
    (hsrc : src.length = P.trgswLv1.N + 1) (ho : out.length = P.tlweLv0.N + 1)
    (hk : 2 ^ P.trgswLv1.BASEBIT * P.trgswLv1.IKS_T * P.trgswLv1.N ≤ ksk.length)
    (hrow : ∀ e ∈ ksk, P.tlweLv0.N + 1 ≤ e.length) :
    identityKeySwitchingAssign P src ksk out = some (ksOut P.tlweLv0.N P.trgswLv1.N P.trgswLv1.BASEBIT
      P.trgswLv1.IKS_T src ksk) := by
  unfold identityKeySwitchingAssign
  rw [ho, forRange_fill_full _ out (fun _ => 0) ho _ (fun _ _ _ _ => rfl)]
  simp only [Option.bind_eq_bind, Option.bind_some]
  rw [rdLast_eq src _ hsrc, Option.bind_some, wr_eq _ _ _ (by simp), Option.bind_some,
    keySwitchLoop_eq _ _ _ (P.tlweLv0.N + 1) src ksk _ hb hT (by omega) (by simp) hk hrow]
  congr 1
  apply tab_congr
  intro x hx
  congr 1
  unfold at'
  rw [List.getD_eq_getElem?_getD, List.getElem?_set]
  by_cases h : x = P.tlweLv0.N
  · subst h; simp
  · rw [if_neg (fun e => h e.symm), getElem?_tab, if_pos hx, if_neg h]; rfl

theorem identityKeySwitching_eq (P : Params) (src : List Torus) (ksk : List (List Torus))
    (hb : 1 ≤ P.trgswLv1.BASEBIT) (hT : P.trgswLv1.BASEBIT * P.trgswLv1.IKS_T ≤ 31)
    (hsrc : src.length = P.trgswLv1.N + 1)
    (hk : 2 ^ P.trgswLv1.BASEBIT * P.trgswLv1.IKS_T * P.trgswLv1.N ≤ ksk.length)
    (hrow : ∀ e ∈ ksk, P.tlweLv0.N + 1 ≤ e.length) :
    identityKeySwitching P src ksk = some (ksOut P.tlweLv0.N P.trgswLv1.N P.trgswLv1.BASEBIT
      P.trgswLv1.IKS_T src ksk) := by
  rw [← identityKeySwitchingAssign_eq P src ksk (mkSlice (P.tlweLv0.N + 1) 0) hb hT hsrc (by simp) hk hrow]
  unfold identityKeySwitching identityKeySwitchingAssign
  rw [length_mkSlice, forRange_fill_full _ _ (fun _ => (0 : Torus)) (by simp) _ (fun _ _ _ _ => rfl)]
  have : mkSlice (P.tlweLv0.N + 1) (0 : Torus) = tab (P.tlweLv0.N + 1) fun _ => 0 := by
    apply eq_tab_of _ _ _ (by simp)
    intro i hi
    simp [mkSlice]
  rw [this]
  rfl

/-- Rounding error of the digits of coefficient `i`. -/
def ksRound (b T : ℕ) (a : Torus) : Torus :=
  ((2 ^ (31 - b * T) : ℕ) : Torus)
    - (((a + ((2 ^ (31 - b * T) : ℕ) : Torus)).toNat % 2 ^ (32 - b * T) : ℕ) : Torus)

theorem nrm_ksRound (b T : ℕ) (a : Torus) (hT : b * T ≤ 31) : nrm (ksRound b T a) ≤ 2 ^ (31 - b * T) := by
  unfold ksRound
  set u := (a + ((2 ^ (31 - b * T) : ℕ) : Torus)).toNat % 2 ^ (32 - b * T) with hu
  have hlt : u < 2 ^ (32 - b * T) := Nat.mod_lt _ (by positivity)
  have h2 : 2 ^ (32 - b * T) = 2 ^ (31 - b * T) * 2 := by
    rw [← pow_succ]; congr 1; omega
  have e : ((2 ^ (31 - b * T) : ℕ) : Torus) - ((u : ℕ) : Torus)
      = BitVec.ofInt 32 (((2 ^ (31 - b * T) : ℕ) : ℤ) - u) := by
    rw [← cast_int_eq]; push_cast; rfl
  rw [e]
  refine (nrm_ofInt _).trans ?_
  omega

theorem ksDigit_sum (b T : ℕ) (src : List Torus) (i : ℕ) (hT : b * T ≤ 31) :
    ∑ j ∈ Finset.range T, ((ksDigit b T src i j * 2 ^ (32 - (j + 1) * b) : ℕ) : Torus)
      = at' src i + ksRound b T (at' src i) := by
  set y := at' src i + ((2 ^ (31 - b * T) : ℕ) : Torus) with hy
  have h := digits_sum y.toNat b T (by rw [Nat.mul_comm]; omega)
  rw [Nat.mod_eq_of_lt (a := y.toNat) (b := 2 ^ 32) y.isLt] at h
  rw [← Nat.cast_sum]
  have h' := congrArg (fun n : ℕ => ((n : ℕ) : Torus)) h
  simp only [Nat.cast_add] at h'
  rw [natCast_toNat, Nat.mul_comm T b] at h'
  unfold ksRound
  rw [← hy]
  have e : (∑ j ∈ Finset.range T, ksDigit b T src i j * 2 ^ (32 - (j + 1) * b))
      = ∑ i ∈ Finset.range T, y.toNat / 2 ^ (32 - (i + 1) * b) % 2 ^ b * 2 ^ (32 - (i + 1) * b) := rfl
  rw [e]
  rw [← h'] at hy
  linear_combination h' + hy - h'

/-- Exact phase of the key switching output. -/
theorem phase_ksOut (n0 n b T : ℕ) (src : List Torus) (ksk : List (List Torus)) (s0 s1 : List Torus)
    (err : ℕ → ℕ → ℕ → Torus) (hT : b * T ≤ 31) (hksk : IsKsk n0 n b T ksk s0 s1 err) :
    phase n0 (ksOut n0 n b T src ksk) s0 = phase n src s1
      - ∑ i ∈ Finset.range n, ksRound b T (at' src i) * at' s1 i
      - ∑ i ∈ Finset.range n, ∑ j ∈ Finset.range T,
          if ksDigit b T src i j ≠ 0 then err i j (ksDigit b T src i j) else 0 := by
  unfold ksOut
  rw [phase_sub, phase_finset_sum]
  have h1 : phase n0 (tab (n0 + 1) fun x => if x = n0 then at' src n else 0) s0 = at' src n := by
    unfold phase
    rw [at'_tab _ _ _ (by omega), if_pos rfl, Finset.sum_eq_zero, sub_zero]
    intro i hi
    have := Finset.mem_range.1 hi
    rw [at'_tab _ _ _ (by omega), if_neg (by omega), zero_mul]
  rw [h1]
  have h2 : ∀ i ∈ Finset.range n, phase n0 (tab (n0 + 1) fun x => ∑ j ∈ Finset.range T,
        if ksDigit b T src i j ≠ 0 then at' (entry ksk (2 ^ b * T * i + 2 ^ b * j + ksDigit b T src i j)) x
        else 0) s0 = (at' src i + ksRound b T (at' src i)) * at' s1 i
          + ∑ j ∈ Finset.range T, if ksDigit b T src i j ≠ 0 then err i j (ksDigit b T src i j) else 0 := by
    intro i hi
    rw [phase_finset_sum, ← ksDigit_sum b T src i hT, Finset.sum_mul, ← Finset.sum_add_distrib]
    apply Finset.sum_congr rfl
    intro j hj
    by_cases h0 : ksDigit b T src i j = 0
    · simp only [h0, ne_eq, not_true, if_false, Nat.cast_zero, zero_mul, add_zero]
      unfold phase
      rw [at'_tab _ _ _ (by omega), Finset.sum_eq_zero, sub_zero]
      intro x hx
      have := Finset.mem_range.1 hx
      rw [at'_tab _ _ _ (by omega), zero_mul]
    · simp only [ne_eq, h0, not_false_eq_true, if_true]
      rw [← hksk i (Finset.mem_range.1 hi) j (Finset.mem_range.1 hj) (ksDigit b T src i j) (by omega)
        (Nat.mod_lt _ (by positivity))]
      apply phase_congr
      intro x hx
      rw [at'_tab _ _ _ (by omega)]
  rw [Finset.sum_congr rfl h2, Finset.sum_add_distrib]
  unfold phase
  have h3 : ∑ i ∈ Finset.range n, (at' src i + ksRound b T (at' src i)) * at' s1 i
      = ∑ i ∈ Finset.range n, at' src i * at' s1 i
        + ∑ i ∈ Finset.range n, ksRound b T (at' src i) * at' s1 i := by
    rw [← Finset.sum_add_distrib]
    apply Finset.sum_congr rfl
    intro i _; ring
  rw [h3]; ring

end GoTfhe
