import Verif.Spec.Bootstrap
import Verif.Props.Evaluator
import Verif.Model.CloudKey

/-!
# The phase of a bootstrapped ciphertext
-/

namespace GoTfhe

variable {O : FourierOps}

theorem nearest2N_spec (N x : ℕ) : IsNearest2N N x (nearest2N N x) := by
  unfold IsNearest2N nearest2N
  have h1 := Nat.div_add_mod (x * (2 * N) + 2 ^ 31) (2 ^ 32)
  have h2 := Nat.mod_lt (x * (2 * N) + 2 ^ 31) (show 0 < 2 ^ 32 by positivity)
  generalize (x * (2 * N) + 2 ^ 31) / 2 ^ 32 = q at *
  generalize (x * (2 * N) + 2 ^ 31) % 2 ^ 32 = r at *
  have h3 : (2 ^ 32 : ℤ) * q + r = x * (2 * N) + 2 ^ 31 := by exact_mod_cast h1
  have h4 : (r : ℤ) < 2 ^ 32 := by exact_mod_cast h2
  constructor
  · nlinarith
  · nlinarith

theorem isNearest2N_unique {N x : ℕ} {s t : ℤ} (hs : IsNearest2N N x s) (ht : IsNearest2N N x t) : s = t := by
  obtain ⟨a, b⟩ := hs
  obtain ⟨c, d⟩ := ht
  have h1 : s * 2 ^ 32 < (t + 1) * 2 ^ 32 := lt_of_le_of_lt a d
  have h2 : t * 2 ^ 32 < (s + 1) * 2 ^ 32 := lt_of_le_of_lt c b
  have := lt_of_mul_lt_mul_right h1 (by positivity)
  have := lt_of_mul_lt_mul_right h2 (by positivity)
  omega

/-- Worst-case noise of a bootstrapped ciphertext: blind rotation, sample extraction, key switching. -/
def bootBound (P : Params) (D β κ w0 w1 : ℕ) : ℕ :=
  rotBound P β D w0 w1 + w1
    + (w1 * 2 ^ (31 - P.trgswLv1.BASEBIT * P.trgswLv1.IKS_T) + P.trgswLv1.N * (P.trgswLv1.IKS_T * κ))

/-- The evaluation keys of the cloud key `ck` belong to the secret keys `s0`, `s1`, with bootstrapping-key
noise at most `β`, key-switching-key noise at most `κ`; the Fourier backend has error at most `D`. -/
structure KeysOK (P : Params) (L : FourierLaws O) (D β κ : ℕ) (ck : CloudKey O) (s0 s1 : List Torus) :
    Prop where
  acc : L.Accurate (P.trgswLv1.L * 2) (2 ^ (P.trgswLv1.BGBIT - 1)) D
  off : genDecompositionOffset P = some ck.decompositionOffset
  bin0 : IsBinary s0
  bin1 : IsBinary s1
  bsk : ∃ err, IsBsk L P.tlweLv0.N P.trgswLv1.N P.trgswLv1.L P.trgswLv1.BGBIT ck.bootstrappingKey s0 s1 err ∧
    ∀ i j k, nrm (err i j k) ≤ β
  ksk_good : GoodKsk P ck.keySwitchingKey
  ksk : ∃ err, IsKsk P.tlweLv0.N P.trgswLv1.N P.trgswLv1.BASEBIT P.trgswLv1.IKS_T ck.keySwitchingKey s0 s1 err ∧
    ∀ i j k, nrm (err i j k) ≤ κ

/-- The bootstrapping of `c` with the test vector `tv`, as a value. -/
def bootOut (P : Params) (L : FourierLaws O) (ck : CloudKey O) (tv : Trlwe) (c : List Torus) : List Torus :=
  bootPure P L ck.decompositionOffset ck.bootstrappingKey ck.keySwitchingKey tv c

/-- The realised noise of that bootstrapping: what its phase differs by from the coefficient of the test
vector that the rounded phase of `c` selects. -/
def bootNoise (P : Params) (L : FourierLaws O) (ck : CloudKey O) (s0 s1 : List Torus) (tv : Trlwe)
    (c : List Torus) : Torus :=
  phase P.tlweLv0.N (bootOut P L ck tv c) s0
    - ext P.trgswLv1.N (trPhase P.trgswLv1.N tv.A tv.B s1) (msPhase P.trgswLv1.N P.tlweLv0.N c s0)

theorem nrm_sum_weight (s : List Torus) (hs : IsBinary s) (n : ℕ) :
    nrm (∑ i ∈ Finset.Ico (0 + 1) n, at' s i) ≤ weight n s := by
  refine (nrm_sum _ _).trans ?_
  unfold weight
  have : ∀ i, nrm (at' s i) ≤ (at' s i).toNat := by
    intro i
    rcases isBinary_at' hs i with h | h <;> rw [h] <;> decide
  refine (Finset.sum_le_sum fun i _ => this i).trans ?_
  apply Finset.sum_le_sum_of_subset
  intro i hi
  rw [Finset.mem_Ico] at hi
  exact Finset.mem_range.2 hi.2

theorem nrm_bootNoise {P : Params} (W : WellFormed P) (L : FourierLaws O) (hd : O.deg = P.trgswLv1.N)
    {D β κ : ℕ} {ck : CloudKey O} {s0 s1 : List Torus} (K : KeysOK P L D β κ ck s0 s1) (tv : Trlwe)
    (c : List Torus) :
    nrm (bootNoise P L ck s0 s1 tv c)
      ≤ bootBound P D β κ (weight P.tlweLv0.N s0) (weight P.trgswLv1.N s1) := by
  obtain ⟨err, hbsk, hβ⟩ := K.bsk
  obtain ⟨kerr, hksk, hκ⟩ := K.ksk
  have hN : 0 < P.trgswLv1.N := by have := W.min_degree; omega
  have hrot : nrm (trPhase P.trgswLv1.N
        (blindRot P L ck.decompositionOffset ck.bootstrappingKey tv c).A
        (blindRot P L ck.decompositionOffset ck.bootstrappingKey tv c).B s1 0
      - ext P.trgswLv1.N (trPhase P.trgswLv1.N tv.A tv.B s1) (msPhase P.trgswLv1.N P.tlweLv0.N c s0))
      ≤ rotBound P β D (weight P.tlweLv0.N s0) (weight P.trgswLv1.N s1) := by
    obtain ⟨b, a, e0, e, hb, ha, h0, he, hph⟩ := blindRot_phase W L hd K.acc K.off hbsk K.bin0 K.bin1 hβ tv c
    have hms : b - ∑ i ∈ Finset.range P.tlweLv0.N, ((at' s0 i).toNat : ℤ) * a i
        = msPhase P.trgswLv1.N P.tlweLv0.N c s0 := by
      unfold msPhase
      rw [isNearest2N_unique hb (nearest2N_spec _ _)]
      congr 1
      apply Finset.sum_congr rfl
      intro i _
      rw [isNearest2N_unique (ha i) (nearest2N_spec _ _)]
    rw [hph 0 hN, hms]
    have e1 : mulXk P.trgswLv1.N (trPhase P.trgswLv1.N tv.A tv.B s1) (-msPhase P.trgswLv1.N P.tlweLv0.N c s0) 0
        = ext P.trgswLv1.N (trPhase P.trgswLv1.N tv.A tv.B s1) (msPhase P.trgswLv1.N P.tlweLv0.N c s0) := by
      unfold mulXk
      congr 1
      simp
    rw [e1, add_assoc, add_sub_cancel_left]
    refine (nrm_add _ _).trans ?_
    have h1 := nrm_mulXk P.trgswLv1.N e0 _ h0 hN
      (∑ i ∈ Finset.range P.tlweLv0.N, ((at' s0 i).toNat : ℤ) * a i) 0
    have h2 : nrm (∑ i ∈ Finset.range P.tlweLv0.N, mulXk P.trgswLv1.N (e i)
                (∑ j ∈ Finset.Ico (i + 1) P.tlweLv0.N, ((at' s0 j).toNat : ℤ) * a j) 0)
        ≤ ∑ i ∈ Finset.range P.tlweLv0.N, ((at' s0 i).toNat * (1 + weight P.trgswLv1.N s1)
            * (1 + 2 ^ (32 - P.trgswLv1.L * P.trgswLv1.BGBIT))
          + 2 * P.trgswLv1.L * P.trgswLv1.N * 2 ^ (P.trgswLv1.BGBIT - 1) * β
          + D * (1 + weight P.trgswLv1.N s1)) := by
      refine (nrm_sum _ _).trans (Finset.sum_le_sum fun i hi => ?_)
      exact nrm_mulXk P.trgswLv1.N (e i) _ (he i (Finset.mem_range.1 hi)) hN _ 0
    refine (Nat.add_le_add h1 h2).trans (le_of_eq ?_)
    unfold rotBound
    rw [Finset.sum_add_distrib, Finset.sum_add_distrib]
    simp only [Finset.sum_const, Finset.card_range, smul_eq_mul, weight, ← Finset.sum_mul]
    ring
  have hks := ksOut_bound W (extracted P.trgswLv1.N
    (blindRot P L ck.decompositionOffset ck.bootstrappingKey tv c) 0) ck.keySwitchingKey s0 s1 kerr κ hksk hκ
    (isBinary_at' K.bin1)
  have hex := phase_extracted P.trgswLv1.N (blindRot P L ck.decompositionOffset ck.bootstrappingKey tv c) 0 s1 hN
  have hw := nrm_sum_weight s1 K.bin1 P.trgswLv1.N
  unfold bootNoise bootOut bootPure bootBound
  set out := phase P.tlweLv0.N (ksOut P.tlweLv0.N P.trgswLv1.N P.trgswLv1.BASEBIT P.trgswLv1.IKS_T
    (extracted P.trgswLv1.N (blindRot P L ck.decompositionOffset ck.bootstrappingKey tv c) 0)
    ck.keySwitchingKey) s0 with hout
  set exv := phase P.trgswLv1.N (extracted P.trgswLv1.N
    (blindRot P L ck.decompositionOffset ck.bootstrappingKey tv c) 0) s1 with hexv
  set sel := ext P.trgswLv1.N (trPhase P.trgswLv1.N tv.A tv.B s1) (msPhase P.trgswLv1.N P.tlweLv0.N c s0)
  set rot := trPhase P.trgswLv1.N (blindRot P L ck.decompositionOffset ck.bootstrappingKey tv c).A
        (blindRot P L ck.decompositionOffset ck.bootstrappingKey tv c).B s1 0
  have : out - sel = (rot - sel) + (∑ i ∈ Finset.Ico (0 + 1) P.trgswLv1.N, at' s1 i) + (out - exv) := by
    rw [hex]; ring
  rw [this]
  refine (nrm_add _ _).trans (Nat.add_le_add ((nrm_add _ _).trans (Nat.add_le_add hrot hw)) hks)

/-! ### Rounding of the phase -/

theorem ext_mod (N : ℕ) (hN : 0 < N) (f : ℕ → Torus) {e e' : ℤ} (h : (2 * N : ℤ) ∣ e - e') :
    ext N f e = ext N f e' := by
  obtain ⟨q, hq⟩ := h
  rw [show e = e' + 2 * N * q by linarith, ext_add_two_mul N hN]

/-- How far rounding can move the phase. -/
def drift (P : Params) (w0 : ℕ) : ℕ := (1 + w0) * 2 ^ (30 - P.trgswLv1.NBIT)

theorem nearest2N_dist {P : Params} (W : WellFormed P) (x : ℕ) :
    |nearest2N P.trgswLv1.N x * 2 ^ (31 - P.trgswLv1.NBIT) - x| ≤ 2 ^ (30 - P.trgswLv1.NBIT) := by
  obtain ⟨h1, h2⟩ := nearest2N_spec P.trgswLv1.N x
  have hn := W.nbit_le
  have hN := W.pow2
  generalize nearest2N P.trgswLv1.N x = t at *
  rw [hN] at h1 h2
  have e1 : (2 : ℤ) ^ 32 = 2 ^ (31 - P.trgswLv1.NBIT) * (2 * 2 ^ P.trgswLv1.NBIT) := by
    rw [← pow_succ', ← pow_add]; congr 1; omega
  have e2 : (2 : ℤ) ^ 31 = 2 ^ (30 - P.trgswLv1.NBIT) * (2 * 2 ^ P.trgswLv1.NBIT) := by
    rw [← pow_succ', ← pow_add]; congr 1; omega
  have e3 : (2 : ℤ) ^ (31 - P.trgswLv1.NBIT) = 2 * 2 ^ (30 - P.trgswLv1.NBIT) := by
    rw [← pow_succ']; congr 1; omega
  rw [e1, e2] at h1 h2
  simp only [Nat.cast_pow, Nat.cast_ofNat] at h1 h2
  have hp : (0 : ℤ) < 2 * 2 ^ P.trgswLv1.NBIT := by positivity
  have h3 : t * 2 ^ (31 - P.trgswLv1.NBIT) ≤ x + 2 ^ (30 - P.trgswLv1.NBIT) := by
    refine le_of_mul_le_mul_right ?_ hp
    calc _ = t * (2 ^ (31 - P.trgswLv1.NBIT) * (2 * 2 ^ P.trgswLv1.NBIT)) := by ring
      _ ≤ _ := h1
      _ = _ := by ring
  have h4 : x + 2 ^ (30 - P.trgswLv1.NBIT) < (t + 1) * 2 ^ (31 - P.trgswLv1.NBIT) := by
    refine lt_of_mul_lt_mul_right ?_ hp.le
    calc _ = (x : ℤ) * (2 * 2 ^ P.trgswLv1.NBIT) + 2 ^ (30 - P.trgswLv1.NBIT) * (2 * 2 ^ P.trgswLv1.NBIT) := by
            ring
      _ < _ := h2
      _ = _ := by ring
  rw [abs_le]
  constructor
  · nlinarith
  · linarith

theorem toInt_phase_congr (n : ℕ) (c s : List Torus) :
    ∃ z : ℤ, (phase n c s).toInt = ((at' c n).toNat : ℤ)
      - ∑ i ∈ Finset.range n, ((at' s i).toNat : ℤ) * (at' c i).toNat + z * 2 ^ 32 := by
  have key : phase n c s = (((at' c n).toNat : ℤ)
      - ∑ i ∈ Finset.range n, ((at' s i).toNat : ℤ) * (at' c i).toNat : ℤ) := by
    unfold phase
    push_cast
    have hc : ∀ x : Torus, ((x.toNat : ℕ) : Torus) = x := by intro x; simp
    rw [hc]
    congr 1
    apply Finset.sum_congr rfl
    intro i _
    rw [hc, hc, mul_comm]
  rw [key]
  generalize (((at' c n).toNat : ℤ) - ∑ i ∈ Finset.range n, ((at' s i).toNat : ℤ) * (at' c i).toNat) = v
  rw [cast_int_eq, toInt_ofInt32]
  obtain ⟨q, hq⟩ : (4294967296 : ℤ) ∣ v.bmod 4294967296 - v := by
    have h2 : v.bmod 4294967296 % 4294967296 = v % 4294967296 := Int.bmod_emod
    omega
  refine ⟨q, ?_⟩
  show v.bmod 4294967296 = v + q * 4294967296
  omega

/-- The rounded phase, brought into the range around the phase itself, is within `drift` of it. -/
theorem msPhase_near {P : Params} (W : WellFormed P) (c s : List Torus) :
    Near P c s (drift P (weight P.tlweLv0.N s)) := by
  obtain ⟨z, hz⟩ := toInt_phase_congr P.tlweLv0.N c s
  refine ⟨msPhase P.trgswLv1.N P.tlweLv0.N c s + z * (2 * P.trgswLv1.N), ⟨-z, by ring⟩, ?_⟩
  have e1 : (2 : ℤ) ^ 32 = 2 ^ (31 - P.trgswLv1.NBIT) * (2 * 2 ^ P.trgswLv1.NBIT) := by
    have := W.nbit_le
    rw [← pow_succ', ← pow_add]; congr 1; omega
  have hN : (P.trgswLv1.N : ℤ) = 2 ^ P.trgswLv1.NBIT := by rw [W.pow2]; push_cast; rfl
  set M : ℤ := 2 ^ (31 - P.trgswLv1.NBIT) with hM
  set h : ℤ := 2 ^ (30 - P.trgswLv1.NBIT) with hh
  have hd := fun x => nearest2N_dist W x
  rw [← hM, ← hh] at hd
  have : (msPhase P.trgswLv1.N P.tlweLv0.N c s + z * (2 * P.trgswLv1.N)) * M - (phase P.tlweLv0.N c s).toInt
      = (nearest2N P.trgswLv1.N (at' c P.tlweLv0.N).toNat * M - (at' c P.tlweLv0.N).toNat)
        - ∑ i ∈ Finset.range P.tlweLv0.N, ((at' s i).toNat : ℤ)
            * (nearest2N P.trgswLv1.N (at' c i).toNat * M - (at' c i).toNat) := by
    rw [hz, e1, hN]
    unfold msPhase
    simp only [mul_sub, Finset.sum_sub_distrib, ← mul_assoc, ← Finset.sum_mul]
    ring
  rw [this]
  have hs : |∑ i ∈ Finset.range P.tlweLv0.N, ((at' s i).toNat : ℤ)
            * (nearest2N P.trgswLv1.N (at' c i).toNat * M - (at' c i).toNat)|
      ≤ weight P.tlweLv0.N s * h := by
    refine (Finset.abs_sum_le_sum_abs _ _).trans ?_
    unfold weight
    push_cast
    rw [Finset.sum_mul]
    apply Finset.sum_le_sum
    intro i _
    rw [abs_mul, abs_of_nonneg (show (0 : ℤ) ≤ (at' s i).toNat by positivity)]
    exact mul_le_mul_of_nonneg_left (hd _) (by positivity)
  have hb := hd (at' c P.tlweLv0.N).toNat
  unfold drift
  push_cast
  rw [← hh]
  refine (abs_sub _ _).trans ?_
  linarith

/-- A ciphertext whose phase is in the upper half circle, at least `d` away from its ends when rounding moves it by at most `d`, selects one of the
first `N` coefficients of the test vector. -/
theorem msPhase_upper {P : Params} (W : WellFormed P) (c s : List Torus) {d : ℕ} (hnear : Near P c s d)
    (h1 : (d : ℤ) ≤ (phase P.tlweLv0.N c s).toInt)
    (h2 : (phase P.tlweLv0.N c s).toInt + d < 2 ^ 31) (f : ℕ → Torus) :
    ∃ j < P.trgswLv1.N, ext P.trgswLv1.N f (msPhase P.trgswLv1.N P.tlweLv0.N c s) = f j := by
  obtain ⟨ρ, hdv, hab⟩ := hnear
  rw [abs_le] at hab
  have hN0 : 0 < P.trgswLv1.N := by have := W.min_degree; omega
  have hM : (0 : ℤ) < 2 ^ (31 - P.trgswLv1.NBIT) := by positivity
  have hNM : (P.trgswLv1.N : ℤ) * 2 ^ (31 - P.trgswLv1.NBIT) = 2 ^ 31 := by
    have := W.nbit_le
    rw [W.pow2]; push_cast; rw [← pow_add, show P.trgswLv1.NBIT + (31 - P.trgswLv1.NBIT) = 31 by omega]; rfl
  have l1 : 0 ≤ ρ := by
    by_contra hc
    have : ρ * 2 ^ (31 - P.trgswLv1.NBIT) < 0 := mul_neg_of_neg_of_pos (not_le.1 hc) hM
    linarith
  have l2 : ρ < P.trgswLv1.N := by
    refine lt_of_mul_lt_mul_right ?_ hM.le
    rw [hNM]; linarith
  refine ⟨ρ.toNat, by omega, ?_⟩
  rw [ext_mod P.trgswLv1.N hN0 f hdv]
  conv_lhs => rw [← Int.toNat_of_nonneg l1]
  rw [ext_of_lt P.trgswLv1.N f _ (by omega)]

theorem msPhase_lower {P : Params} (W : WellFormed P) (c s : List Torus) {d : ℕ} (hnear : Near P c s d)
    (h1 : (phase P.tlweLv0.N c s).toInt + d < 0)
    (h2 : -2 ^ 31 + (d : ℤ) ≤ (phase P.tlweLv0.N c s).toInt) (f : ℕ → Torus) :
    ∃ j < P.trgswLv1.N, ext P.trgswLv1.N f (msPhase P.trgswLv1.N P.tlweLv0.N c s) = -f j := by
  obtain ⟨ρ, hdv, hab⟩ := hnear
  rw [abs_le] at hab
  have hN0 : 0 < P.trgswLv1.N := by have := W.min_degree; omega
  have hM : (0 : ℤ) < 2 ^ (31 - P.trgswLv1.NBIT) := by positivity
  have hNM : (P.trgswLv1.N : ℤ) * 2 ^ (31 - P.trgswLv1.NBIT) = 2 ^ 31 := by
    have := W.nbit_le
    rw [W.pow2]; push_cast; rw [← pow_add, show P.trgswLv1.NBIT + (31 - P.trgswLv1.NBIT) = 31 by omega]; rfl
  have l1 : ρ < 0 := by
    by_contra hc
    have : 0 ≤ ρ * 2 ^ (31 - P.trgswLv1.NBIT) := mul_nonneg (not_lt.1 hc) hM.le
    linarith
  have l2 : -(P.trgswLv1.N : ℤ) ≤ ρ := by
    refine le_of_mul_le_mul_right ?_ hM
    rw [neg_mul, hNM]; linarith
  refine ⟨(ρ + P.trgswLv1.N).toNat, by omega, ?_⟩
  rw [ext_mod P.trgswLv1.N hN0 f hdv]
  have e : ext P.trgswLv1.N f (ρ + P.trgswLv1.N) = f (ρ + P.trgswLv1.N).toNat := by
    conv_lhs => rw [← Int.toNat_of_nonneg (show 0 ≤ ρ + P.trgswLv1.N by omega)]
    rw [ext_of_lt P.trgswLv1.N f _ (by omega)]
  rw [← e, ext_add_N _ hN0, neg_neg]

end GoTfhe
