import Verif.Lemmas.DriftFar
import Verif.Props.Drift

/-!
# C73: programmable bootstrapping at the modulus a level is meant for

`params.go` describes Uint1 to Uint8 as specialised for 1 to 8-bit messages. At Uint6, Uint7 and Uint8 the rounding before
the blind rotation alone makes a noticeable fraction of bootstrappings return a wrong message.
-/

namespace GoTfhe

open Finset

variable {O : FourierOps}

theorem maskProb_ge_of_far {n : ℕ} (E : Mask n → Prop) (δ : ℝ)
    (h : ∀ far : Finset (Mask n), (∀ a, a ∈ far ↔ E a) → δ * (2 ^ 32) ^ n ≤ (far.card : ℝ)) : MaskProbGe E δ := by
  classical
  unfold MaskProbGe
  have hf : {a | E a}.Finite := Set.toFinite _
  rw [Set.ncard_eq_toFinset_card _ hf]
  exact h _ fun a => by simp

/-- A rounded phase more than half a step from its message lies in the slot of another message. -/
theorem wrong_slot (N m S r : ℕ) (M ρ z : ℤ) (hM : 0 < M) (hNM : M * N = 2 ^ 31) (hm : 0 < m)
    (hmS : (m : ℤ) * S = 2 ^ 30) (hρ : ρ * M = r * (2 * S) + z) (hz : (S : ℤ) < |z|) (h0 : 0 ≤ ρ * M)
    (h1 : ρ * M + S < 2 ^ 31) :
    ∃ x < m, x ≠ r ∧ (2 * (x : ℤ) - 1) * (N : ℤ) ≤ 2 * m * ρ ∧ 2 * m * ρ < (2 * x + 1) * (N : ℤ) := by
  have hN : (0 : ℤ) < N := by
    by_contra hc
    have : (N : ℤ) = 0 := by omega
    rw [this] at hNM
    norm_num at hNM
  have hρ0 : 0 ≤ ρ := nonneg_of_mul_nonneg_left h0 hM
  have hmp : (0 : ℤ) < m := by exact_mod_cast hm
  set x : ℤ := (2 * m * ρ + N) / (2 * N) with hx
  have hd := Int.emod_add_mul_ediv (2 * m * ρ + N) (2 * N)
  have hl := Int.emod_nonneg (2 * m * ρ + N) (show (2 * N : ℤ) ≠ 0 by omega)
  have hu := Int.emod_lt_of_pos (2 * m * ρ + N) (show (0 : ℤ) < 2 * N by omega)
  rw [← hx] at hd
  have b1 : (2 * x - 1) * (N : ℤ) ≤ 2 * m * ρ := by linarith
  have b2 : 2 * m * ρ < (2 * x + 1) * (N : ℤ) := by linarith
  have hx0 : 0 ≤ x := Int.ediv_nonneg (by positivity) (by positivity)
  have b1' : M * ((2 * x - 1) * (N : ℤ)) ≤ M * (2 * m * ρ) := mul_le_mul_of_nonneg_left b1 hM.le
  have b2' : M * (2 * m * ρ) < M * ((2 * x + 1) * (N : ℤ)) := mul_lt_mul_of_pos_left b2 hM
  have e1 : M * ((2 * x - 1) * (N : ℤ)) = 2 * m * ((2 * x - 1) * S) := by
    linear_combination (2 * x - 1) * hNM - 2 * (2 * x - 1) * hmS
  have e2 : M * ((2 * x + 1) * (N : ℤ)) = 2 * m * ((2 * x + 1) * S) := by
    linear_combination (2 * x + 1) * hNM - 2 * (2 * x + 1) * hmS
  have e3 : M * (2 * m * ρ) = 2 * m * (ρ * M) := by ring
  rw [e1, e3] at b1'
  rw [e2, e3] at b2'
  have c1 : (2 * x - 1) * S ≤ ρ * M := le_of_mul_le_mul_left b1' (by positivity)
  have c2 : ρ * M < (2 * x + 1) * S := lt_of_mul_lt_mul_left b2' (by positivity)
  have hxm : x < m := by
    have : 2 * x * S < 2 * m * S := by nlinarith
    have hS : (0 : ℤ) ≤ S := by positivity
    nlinarith
  refine ⟨x.toNat, by omega, ?_, ?_, ?_⟩
  · intro hxr
    have hxr' : x = r := by omega
    rw [hxr'] at c1 c2
    have : |z| ≤ S := abs_le.2 ⟨by linarith, by linarith⟩
    omega
  · rw [Int.toNat_of_nonneg hx0]; exact b1
  · rw [Int.toNat_of_nonneg hx0]; exact b2

/-- Encrypting `msg` modulo `2^k` with this mask, bootstrapping with the identity function and decrypting goes through
and gives a message other than `msg`, unless the noise of this bootstrapping exceeds half a message step. -/
def PbsWrong (P : Params) (L : FourierLaws O) (ck : CloudKey O) (s0 s1 : List Torus) (fl : ℚ → ℚ) (k : ℕ)
    (msg : ℤ) (sample : ℚ) (st : EvState O) (a : Mask P.tlweLv0.N) : Prop :=
  ∃ c t st' out, ∃ x : ℤ, x % ((2 ^ k : ℕ) : ℤ) ≠ msg % ((2 ^ k : ℕ) : ℤ) ∧
    encryptLWEMessage fl P (newTLWELv0 P) msg ((2 ^ k : ℕ) : ℤ) s0 a.draw sample = some c ∧
    (newGenerator fl P ((2 ^ k : ℕ) : ℤ)).genLookUpTable fl P some = some t ∧
    bootstrapFunc fl P (st.setLw (.user 0) c) (.user 0) some ((2 ^ k : ℕ) : ℤ) ck.bootstrappingKey
      ck.keySwitchingKey ck.decompositionOffset = some (st', out) ∧ EvGood P L st' ∧
    (nrm (bootNoise P L ck s0 s1 t c) < 2 ^ 30 / 2 ^ k → decryptLWEMessage P out ((2 ^ k : ℕ) : ℤ) s0
      = some (x % ((2 ^ k : ℕ) : ℤ)))

/-- **C73**, when the result is wrong, at any parameters: a mask whose rounding errors add up to more than half a message
step plus what the body's rounding and the sample can hide. The message is the middle of the range, the function the
identity. -/
theorem C73_far {P : Params} (W : WellFormed P) (L : FourierLaws O) (hd : O.deg = P.trgswLv1.N)
    {D β κ : ℕ} {ck : CloudKey O} {s0 s1 : List Torus} (K : KeysOK P L D β κ ck s0 s1)
    (hs0 : P.tlweLv0.N ≤ s0.length) (fl : ℚ → ℚ) (hfl : IsRound fl) (k : ℕ) (hk0 : 1 ≤ k) (hk : k ≤ 29)
    (hN : 2 * 2 ^ k ∣ P.trgswLv1.N) (sample : ℚ) (st : EvState O) (hst : EvGood P L st)
    (E h : ℕ) (hh : 2 ^ (30 - P.trgswLv1.NBIT) = h) (hE : nrm (f64ToTorus sample) ≤ E) (hE' : E < 2 ^ 30 / 2 ^ k)
    (hroom : (1 + P.tlweLv0.N) * h + E + 2 ^ 30 / 2 ^ k < 2 ^ 30) (a : Mask P.tlweLv0.N)
    (ha : ((2 ^ 30 / 2 ^ k + h + E + 1 : ℕ) : ℝ) + (P.tlweLv0.N : ℝ) / 2 ≤ |∑ i : Fin P.tlweLv0.N, ((at' s0 i).toNat : ℝ)
      * ((roundErr P ((toFinEquiv.symm (a i) : Torus)).toNat : ℝ) - 1 / 2)|) :
    PbsWrong P L ck s0 s1 fl k (2 ^ (k - 1)) sample st a := by
  obtain ⟨c, t, ec, et, mc, hphi, hall⟩ := pbs_slot W L hd K hs0 fl hfl k hk some (fun x => (x : ℤ)) (fun x _ => rfl)
    (2 ^ (k - 1)) a.draw sample st hst (by omega)
  obtain ⟨ρ, hρ, hdiff⟩ := msPhase_exact W c s0
  have hn := W.nbit_le
  have hk2 : 2 ^ k = 2 * 2 ^ (k - 1) := by rw [← pow_succ']; congr 1; omega
  have hmsg : ((2 : ℤ) ^ (k - 1)) % ((2 ^ k : ℕ) : ℤ) = ((2 ^ (k - 1) : ℕ) : ℤ) := by
    rw [hk2]
    push_cast
    exact Int.emod_eq_of_lt (by positivity) (by have : (0 : ℤ) < 2 ^ (k - 1) := by positivity
                                                linarith)
  have hSm : 2 ^ k * (2 ^ 30 / 2 ^ k) = 2 ^ 30 := Nat.mul_div_cancel' (pow_dvd_pow 2 (by omega))
  rw [hmsg] at hphi
  obtain ⟨S, hS⟩ : ∃ S, S = 2 ^ 30 / 2 ^ k := ⟨_, rfl⟩
  rw [← hS] at hphi hSm ha hroom hE'
  have hmid : 2 ^ (k - 1) * (2 * S) = 2 ^ 30 := by rw [← hSm, hk2]; ring
  set e := f64ToTorus sample with he
  have hea : |e.toInt| ≤ (E : ℤ) := by
    have : |e.toInt| = (nrm e : ℤ) := by unfold nrm; exact Int.abs_eq_natAbs _
    rw [this]; exact_mod_cast hE
  have hM : (2 : ℤ) ^ (31 - P.trgswLv1.NBIT) = 2 * h := by
    rw [← hh]; push_cast; rw [← pow_succ']; congr 1; omega
  have hM0 : (0 : ℤ) < 2 ^ (31 - P.trgswLv1.NBIT) := by positivity
  have hbody := nearest2N_dist W (at' c P.tlweLv0.N).toNat
  have hh' : (2 : ℤ) ^ (30 - P.trgswLv1.NBIT) = h := by rw [← hh]; push_cast; rfl
  rw [hh'] at hbody
  -- the sum over the mask
  obtain ⟨Y, hY⟩ : ∃ y : ℤ, y = ∑ i ∈ range P.tlweLv0.N, ((at' s0 i).toNat : ℤ) * roundErr P (at' c i).toNat := ⟨_, rfl⟩
  rw [← hY] at hdiff
  have hwle : weight P.tlweLv0.N s0 ≤ P.tlweLv0.N := weight_le _ _ K.bin0
  have hbig : (S + h + E + 1 : ℝ) ≤ |(Y : ℝ)| := by
    have e1 : ∑ i : Fin P.tlweLv0.N, ((at' s0 i).toNat : ℝ) * ((roundErr P ((toFinEquiv.symm (a i) : Torus)).toNat : ℝ) - 1 / 2)
        = (Y : ℝ) - (weight P.tlweLv0.N s0 : ℝ) / 2 := by
      rw [hY, ← Fin.sum_univ_eq_sum_range (fun i => ((at' s0 i).toNat : ℤ) * roundErr P (at' c i).toNat) P.tlweLv0.N]
      unfold weight
      rw [← Fin.sum_univ_eq_sum_range (fun i => (at' s0 i).toNat) P.tlweLv0.N]
      push_cast
      rw [sum_div, ← sum_sub_distrib]
      refine sum_congr rfl fun i _ => ?_
      have : at' c (i : ℕ) = (toFinEquiv.symm (a i) : Torus) := by
        rw [mc i i.2]
        unfold Mask.draw
        rw [dif_pos i.2]
        rfl
      rw [this]
      ring
    rw [e1] at ha
    have h1 : |(Y : ℝ) - (weight P.tlweLv0.N s0 : ℝ) / 2| ≤ |(Y : ℝ)| + (P.tlweLv0.N : ℝ) / 2 := by
      refine (abs_sub _ _).trans ?_
      rw [abs_of_nonneg (by positivity : (0 : ℝ) ≤ (weight P.tlweLv0.N s0 : ℝ) / 2)]
      have : (weight P.tlweLv0.N s0 : ℝ) ≤ P.tlweLv0.N := by exact_mod_cast hwle
      linarith
    push_cast at ha
    linarith
  have hbigZ : (S : ℤ) + h + E + 1 ≤ |Y| := by exact_mod_cast hbig
  have hsmall : |Y| ≤ (P.tlweLv0.N : ℤ) * h := by
    rw [hY]
    refine (abs_sum_le_sum_abs _ _).trans ?_
    have : ∀ i ∈ range P.tlweLv0.N, |((at' s0 i).toNat : ℤ) * roundErr P (at' c i).toNat| ≤ h := by
      intro i _
      have hr := nearest2N_dist W (at' c i).toNat
      rw [hh'] at hr
      rw [abs_mul]
      rcases isBinary_at' K.bin0 i with hb | hb <;> rw [hb]
      · simp
      · rw [show (1 : Torus).toNat = 1 from rfl]
        simpa [roundErr] using hr
    refine (sum_le_sum this).trans (le_of_eq ?_)
    simp
  -- the slot
  set z : ℤ := e.toInt + (roundErr P (at' c P.tlweLv0.N).toNat - Y) with hzdef
  have hb' : |roundErr P (at' c P.tlweLv0.N).toNat| ≤ (h : ℤ) := by unfold roundErr; exact hbody
  have hz : (S : ℤ) < |z| := by
    have : |Y| ≤ |z| + |e.toInt| + |roundErr P (at' c P.tlweLv0.N).toNat| := by
      have : Y = -z + e.toInt + roundErr P (at' c P.tlweLv0.N).toNat := by rw [hzdef]; ring
      rw [this]
      refine (abs_add_three _ _ _).trans ?_
      rw [abs_neg]
    linarith
  have hzu : |z| ≤ E + (h + P.tlweLv0.N * h) := by
    refine (abs_add_le _ _).trans (add_le_add hea ((abs_sub _ _).trans (add_le_add hb' hsmall)))
  have hmidZ : ((2 ^ (k - 1) : ℕ) : ℤ) * (2 * S) = 2 ^ 30 := by exact_mod_cast hmid
  have hρM : ρ * 2 ^ (31 - P.trgswLv1.NBIT) = ((2 ^ (k - 1) : ℕ) : ℤ) * (2 * S) + z := by
    rw [hzdef]; linarith
  have hroomZ : (1 + (P.tlweLv0.N : ℤ)) * h + E + S < 2 ^ 30 := by exact_mod_cast hroom
  have hzz := abs_le.1 hzu
  have hNM : (2 : ℤ) ^ (31 - P.trgswLv1.NBIT) * P.trgswLv1.N = 2 ^ 31 := by
    rw [W.pow2]; push_cast; rw [← pow_add, Nat.sub_add_cancel (by omega)]; norm_num
  have hS0 : (0 : ℤ) ≤ S := by positivity
  obtain ⟨x, hx, hne, b1, b2⟩ := wrong_slot P.trgswLv1.N (2 ^ k) S (2 ^ (k - 1)) _ ρ z hM0 hNM (by positivity)
    (by exact_mod_cast hSm) hρM hz (by rw [hρM, hmidZ]; linarith) (by rw [hρM, hmidZ]; linarith)
  obtain ⟨st', out, e1, g1, hdec⟩ := hall x hx ρ hρ ((C52_slot_exact _ _ Nat.one_le_two_pow hN x ρ).2 ⟨b1, b2⟩)
  refine ⟨c, t, st', out, x, ?_, ec, et, e1, g1, hdec⟩
  rw [hmsg, Int.emod_eq_of_lt (by positivity) (by exact_mod_cast hx)]
  exact_mod_cast hne

/-- **C73**, how often the result is wrong, at any parameters: the message in the middle of the range, the identity
function. `T` is half a message step plus what the body's rounding and the sample can hide. -/
theorem C73_wrong {P : Params} (W : WellFormed P) (L : FourierLaws O) (hd : O.deg = P.trgswLv1.N)
    {D β κ : ℕ} {ck : CloudKey O} {s0 s1 : List Torus} (K : KeysOK P L D β κ ck s0 s1)
    (hs0 : P.tlweLv0.N ≤ s0.length) (fl : ℚ → ℚ) (hfl : IsRound fl) (k : ℕ) (hk0 : 1 ≤ k) (hk : k ≤ 29)
    (hN : 2 * 2 ^ k ∣ P.trgswLv1.N) (sample : ℚ) (st : EvState O) (hst : EvGood P L st)
    (E w h : ℕ) (hh : 2 ^ (30 - P.trgswLv1.NBIT) = h) (hE : nrm (f64ToTorus sample) ≤ E) (hE' : E < 2 ^ 30 / 2 ^ k)
    (hw : w ≤ weight P.tlweLv0.N s0) (hroom : (1 + P.tlweLv0.N) * h + E + 2 ^ 30 / 2 ^ k < 2 ^ 30) (u q : ℝ)
    (hT : 2 * h ≤ 2 ^ 30 / 2 ^ k)
    (hu : u * (2 * (((2 ^ 30 / 2 ^ k + h + E + 1 : ℕ) : ℝ) + (P.tlweLv0.N : ℝ) / 2)) = Real.pi * h)
    (hq : q ≤ w * (u ^ 2 * (1 / 3 - 1 / (12 * h ^ 2)) * (1 / 2 - 5 / 96 * u ^ 2))) :
    MaskProbGe (fun a => PbsWrong P L ck s0 s1 fl k (2 ^ (k - 1)) sample st a) (1 / 4 - Real.exp (-q) / 2) := by
  refine maskProb_ge_of_far _ _ fun far hfar => card_far W s0 K.bin0 w _ u q h hh hw ?_ hu hq (fun _ => toFinEquiv.symm)
    far fun a ha => (hfar a).2 (C73_far W L hd K hs0 fl hfl k hk0 hk hN sample st hst E h hh hE hE' hroom a ha)
  have : ((2 * h : ℕ) : ℝ) ≤ ((2 ^ 30 / 2 ^ k : ℕ) : ℝ) := by exact_mod_cast hT
  push_cast at this ⊢
  have h1 : (0 : ℝ) ≤ (P.tlweLv0.N : ℝ) / 2 := by positivity
  have h2 : (0 : ℝ) ≤ (h : ℝ) := by positivity
  have h3 : (0 : ℝ) ≤ (E : ℝ) := by positivity
  linarith

/-- Half the dimension and the numbers of Uint7 and Uint8. -/
theorem uint_numbers (T : ℝ) (w : ℕ) (u0 u1 q : ℝ) (h0 : 0 ≤ u0) (hT : 0 < T)
    (hu0 : u0 * (2 * T) ≤ 3.14159 * 524288) (hu1 : 3.1416 * 524288 ≤ u1 * (2 * T)) (hu1' : u1 ≤ 1)
    (hq : q ≤ w * (u0 ^ 2 * (1 / 3 - 1 / (12 * 524288 ^ 2)) * (1 / 2 - 5 / 96 * u1 ^ 2))) :
    ∃ u : ℝ, u * (2 * T) = Real.pi * 524288 ∧
      q ≤ w * (u ^ 2 * (1 / 3 - 1 / (12 * 524288 ^ 2)) * (1 / 2 - 5 / 96 * u ^ 2)) := by
  have hp0 : (3.14159 : ℝ) < Real.pi := by have := Real.pi_gt_d6; norm_num at this ⊢; linarith
  have hp1 : Real.pi < (3.1416 : ℝ) := Real.pi_lt_d4
  refine ⟨Real.pi * 524288 / (2 * T), by field_simp, ?_⟩
  have hl : u0 ≤ Real.pi * 524288 / (2 * T) := by rw [le_div_iff₀ (by positivity)]; linarith
  have hr : Real.pi * 524288 / (2 * T) ≤ u1 := by rw [div_le_iff₀ (by positivity)]; linarith
  set u := Real.pi * 524288 / (2 * T)
  refine hq.trans (mul_le_mul_of_nonneg_left ?_ (Nat.cast_nonneg w))
  have hc : (0 : ℝ) < 1 / 3 - 1 / (12 * 524288 ^ 2) := by norm_num
  have h1 : u0 ^ 2 ≤ u ^ 2 := pow_le_pow_left₀ h0 hl 2
  have h2 : u ^ 2 ≤ u1 ^ 2 := pow_le_pow_left₀ (h0.trans hl) hr 2
  have h3 : u1 ^ 2 ≤ 1 := by
    have : 0 ≤ u1 := h0.trans (hl.trans hr)
    nlinarith
  exact mul_le_mul (mul_le_mul_of_nonneg_right h1 hc.le) (by linarith) (by linarith) (by positivity)

theorem exp_neg_le (q y : ℝ) (hq : 0 ≤ q) (hy : 0 < y)
    (h : y⁻¹ ≤ ∑ i ∈ range 8, q ^ i / (i.factorial : ℝ)) : Real.exp (-q) ≤ y := by
  rw [Real.exp_neg, inv_le_comm₀ (Real.exp_pos _) hy]
  exact h.trans (Real.sum_le_exp_of_nonneg hq 8)

/-- **C73** at Uint8 and Uint7: with the modulus the level is named after, the identity function and the middle
message, at least a fifth (Uint8, every key of weight at least 500) or a sixtieth (Uint7, weight at least 540) of all
masks give a wrong result. A random key of 1160 bits has weight 580 on average. The noise sample may be anything up to
`2^12`, about 48 standard deviations. -/
theorem C73_levels (level : SecurityLevel) (k w : ℕ) (δ : ℝ)
    (hrow : (level = 8 ∧ k = 8 ∧ w = 500 ∧ δ = 1 / 5) ∨ (level = 7 ∧ k = 7 ∧ w = 540 ∧ δ = 1 / 60))
    (L : FourierLaws O) (hd : O.deg = (paramsFor level).trgswLv1.N)
    {D β κ : ℕ} {ck : CloudKey O} {s0 s1 : List Torus} (K : KeysOK (paramsFor level) L D β κ ck s0 s1)
    (hs0 : (paramsFor level).tlweLv0.N ≤ s0.length) (fl : ℚ → ℚ) (hfl : IsRound fl)
    (sample : ℚ) (st : EvState O) (hst : EvGood (paramsFor level) L st)
    (hw : w ≤ weight (paramsFor level).tlweLv0.N s0) (hnoise : nrm (f64ToTorus sample) ≤ 2 ^ 12) :
    MaskProbGe (fun a => PbsWrong (paramsFor level) L ck s0 s1 fl k (2 ^ (k - 1)) sample st a) δ := by
  have main : ∀ (q : ℝ) (T : ℝ), 1 ≤ k → k ≤ 29 → 2 ^ (30 - (paramsFor level).trgswLv1.NBIT) = 524288 →
      (paramsFor level).tlweLv0.N = 1160 → 2 * 2 ^ k ∣ (paramsFor level).trgswLv1.N →
      2 ^ 12 < 2 ^ 30 / 2 ^ k → (1 + 1160) * 524288 + 2 ^ 12 + 2 ^ 30 / 2 ^ k < 2 ^ 30 → 2 * 524288 ≤ 2 ^ 30 / 2 ^ k →
      ((2 ^ 30 / 2 ^ k + 524288 + 2 ^ 12 + 1 : ℕ) : ℝ) + 1160 / 2 = T →
      (∃ u : ℝ, u * (2 * T) = Real.pi * 524288 ∧
        q ≤ w * (u ^ 2 * (1 / 3 - 1 / (12 * 524288 ^ 2)) * (1 / 2 - 5 / 96 * u ^ 2))) →
      δ ≤ 1 / 4 - Real.exp (-q) / 2 →
      MaskProbGe (fun a => PbsWrong (paramsFor level) L ck s0 s1 fl k (2 ^ (k - 1)) sample st a) δ := by
    intro q T hk0 hk hh hn hN h1 h2 h3 hT ⟨u, hu, hq⟩ hδ
    have := C73_wrong (C63_wellFormed level) L hd K hs0 fl hfl k hk0 hk hN sample st hst (2 ^ 12) w 524288 hh hnoise h1
      hw (by rw [hn]; exact h2) u q h3 (by rw [hn, Nat.cast_ofNat, hT, hu, Nat.cast_ofNat]) (by push_cast; exact hq)
    exact le_trans (mul_le_mul_of_nonneg_right hδ (by positivity)) this
  rcases hrow with ⟨rfl, rfl, rfl, rfl⟩ | ⟨rfl, rfl, rfl, rfl⟩
  · refine main 2.4 4723269 (by norm_num) (by norm_num) rfl rfl (by show 2 * 2 ^ 8 ∣ 2048; norm_num) (by norm_num)
      (by norm_num) (by norm_num) (by norm_num)
      (uint_numbers _ 500 0.17435 0.17437 2.4 (by norm_num) (by norm_num) (by norm_num) (by norm_num) (by norm_num)
        (by norm_num)) ?_
    have := exp_neg_le 2.4 0.1 (by norm_num) (by norm_num) (by norm_num [Finset.sum_range_succ, Nat.factorial])
    linarith
  · refine main 0.766 8917573 (by norm_num) (by norm_num) rfl rfl (by show 2 * 2 ^ 7 ∣ 2048; norm_num) (by norm_num)
      (by norm_num) (by norm_num) (by norm_num)
      (uint_numbers _ 540 0.09235 0.09236 0.766 (by norm_num) (by norm_num) (by norm_num) (by norm_num) (by norm_num)
        (by norm_num)) ?_
    have := exp_neg_le 0.766 0.4656 (by norm_num) (by norm_num) (by norm_num [Finset.sum_range_succ, Nat.factorial])
    linarith

/-- The numbers of Uint6: the fraction `δ`, for keys of weight at least `w0`. -/
theorem uint6_numbers (ρ κ κ1 δ : ℝ) (w0 w : ℕ) (hκ : 0 ≤ κ) (hκ1 : κ ≤ κ1) (hρ0 : 0 ≤ ρ) (hw0 : 0 < w0) (hw : w0 ≤ w)
    (hδ : δ ≤ 4 / 25 - 737 / 2450 * ρ + 601 / 2450 * (ρ ^ 4 * (1 - 16 * κ1 ^ 2 / (3 * w0))) - 204 / 1225 * ρ ^ 9
      + 108 / 1225 * (ρ ^ 16 * (1 - 256 * κ1 ^ 2 / (3 * w0))) - 8 / 245 * ρ ^ 25
      + 8 / 1225 * (ρ ^ 36 * (1 - 1296 * κ1 ^ 2 / (3 * w0)))) :
    δ ≤ tailComb (normalMean ρ κ w) := by
  have hw0R : (0 : ℝ) < w0 := by exact_mod_cast hw0
  have hwR : (w0 : ℝ) ≤ w := by exact_mod_cast hw
  have hsq : κ ^ 2 ≤ κ1 ^ 2 := pow_le_pow_left₀ hκ hκ1 2
  have hdiv : ∀ c : ℝ, 0 ≤ c → c * κ ^ 2 / (3 * w) ≤ c * κ1 ^ 2 / (3 * w0) := by
    intro c hc
    exact div_le_div₀ (by positivity) (mul_le_mul_of_nonneg_left hsq hc) (by positivity) (by linarith)
  have hlow : ∀ (j : ℕ) (c : ℝ), 0 ≤ c → ρ ^ j * (1 - c * κ1 ^ 2 / (3 * w0)) ≤ ρ ^ j * (1 - c * κ ^ 2 / (3 * w)) :=
    fun j c hc => mul_le_mul_of_nonneg_left (by linarith [hdiv c hc]) (by positivity)
  have h2 := hlow 4 16 (by norm_num)
  have h4 := hlow 16 256 (by norm_num)
  have h6 := hlow 36 1296 (by norm_num)
  unfold tailComb normalMean
  norm_num
  linarith

/-- The numbers of the key weights at Uint6. -/
def uint6Table : List (ℕ × ℚ × ℚ × ℚ) :=
  [(490, 18 / 25, 0.32851, 1 / 1000), (605, 2 / 3, 0.40547, 1 / 280), (892, 11 / 20, 0.59784, 1 / 62),
   (1034, 1 / 2, 0.69315, 1 / 41)]

/-- **C73** at Uint6, with the modulus 64, the identity function and the middle message: for every key of weight at
least 490 at least one mask in 1000 gives a wrong result; for heavier keys more, up to one in 41 from weight 1034 on. A
random key of 1071 bits has weight 535 on average, with standard deviation 16. The noise sample may be anything up to
`2^12`, about 13 standard deviations. -/
theorem C73_uint6 (w0 : ℕ) (ρ κ1 δ : ℚ) (hrow : (w0, ρ, κ1, δ) ∈ uint6Table)
    (L : FourierLaws O) (hd : O.deg = (paramsFor 6).trgswLv1.N)
    {D β κ : ℕ} {ck : CloudKey O} {s0 s1 : List Torus} (K : KeysOK (paramsFor 6) L D β κ ck s0 s1)
    (hs0 : (paramsFor 6).tlweLv0.N ≤ s0.length) (fl : ℚ → ℚ) (hfl : IsRound fl)
    (sample : ℚ) (st : EvState O) (hst : EvGood (paramsFor 6) L st)
    (hw : w0 ≤ weight (paramsFor 6).tlweLv0.N s0) (hnoise : nrm (f64ToTorus sample) ≤ 2 ^ 12) :
    MaskProbGe (fun a => PbsWrong (paramsFor 6) L ck s0 s1 fl 6 (2 ^ (6 - 1)) sample st a) (δ : ℝ) := by
  have hh : 2 ^ (30 - (paramsFor 6).trgswLv1.NBIT) = 524288 := rfl
  have hn : (paramsFor 6).tlweLv0.N = 1071 := rfl
  have hdvd : 2 * 2 ^ 6 ∣ (paramsFor 6).trgswLv1.N := by show 2 * 2 ^ 6 ∣ 2048; norm_num
  have main : ∀ (ρ κ1 δ : ℝ), 0 < ρ → ρ ≤ 1 → 0 < w0 → Real.exp (-κ1) ≤ ρ → 36 * κ1 ≤ w0 / 10 →
      9 * κ1 * 17306137 ^ 2 ≤ 2 * 3.14159 ^ 2 * (w0 * (((524288 : ℕ) : ℝ) ^ 2 / 3 - 1 / 12)) →
      δ ≤ 4 / 25 - 737 / 2450 * ρ + 601 / 2450 * (ρ ^ 4 * (1 - 16 * κ1 ^ 2 / (3 * w0))) - 204 / 1225 * ρ ^ 9
      + 108 / 1225 * (ρ ^ 16 * (1 - 256 * κ1 ^ 2 / (3 * w0))) - 8 / 245 * ρ ^ 25
      + 8 / 1225 * (ρ ^ 36 * (1 - 1296 * κ1 ^ 2 / (3 * w0))) →
      MaskProbGe (fun a => PbsWrong (paramsFor 6) L ck s0 s1 fl 6 (2 ^ (6 - 1)) sample st a) δ := by
    intro ρ κ1 δ hρ0 hρ1 hw0 hexp hsm hT hδ
    obtain ⟨κ', hκ'⟩ : ∃ κ', κ' = -Real.log ρ := ⟨_, rfl⟩
    have hρ : Real.exp (-κ') = ρ := by rw [hκ', neg_neg, Real.exp_log hρ0]
    have hκ0 : 0 ≤ κ' := by rw [hκ']; linarith [Real.log_nonpos hρ0.le hρ1]
    have hκ1 : κ' ≤ κ1 := by
      rw [← hρ, Real.exp_le_exp] at hexp
      linarith
    obtain ⟨w, hwd⟩ : ∃ w, weight (paramsFor 6).tlweLv0.N s0 = w := ⟨_, rfl⟩
    rw [hwd] at hw
    have hwR : (w0 : ℝ) ≤ w := by exact_mod_cast hw
    have hp0 : (3.14159 : ℝ) < Real.pi := by have := Real.pi_gt_d6; norm_num at this ⊢; linarith
    have hp2 : (3.14159 : ℝ) ^ 2 ≤ Real.pi ^ 2 := pow_le_pow_left₀ (by norm_num) hp0.le 2
    have hv : (0 : ℝ) < ((524288 : ℕ) : ℝ) ^ 2 / 3 - 1 / 12 := by norm_num
    refine maskProb_ge_of_far _ _ fun far hfar => le_trans (mul_le_mul_of_nonneg_right
      (uint6_numbers ρ κ' κ1 δ w0 w hκ0 hκ1 hρ0.le hw0 hw hδ) (by positivity))
      (card_far6 (C63_wellFormed 6) s0 K.bin0 w 524288 17306137 κ' ρ hh (by norm_num) hwd (by omega) hκ0 hρ
        (by linarith) ?_ (fun _ => toFinEquiv.symm) far fun a ha => (hfar a).2 (C73_far (C63_wellFormed 6) L hd K hs0 fl hfl 6
          (by norm_num) (by norm_num) hdvd sample st hst (2 ^ 12) 524288 hh hnoise (by norm_num) (by rw [hn]; norm_num) a
          (le_trans ?_ ha)))
    · calc 9 * κ' * 17306137 ^ 2 ≤ 9 * κ1 * 17306137 ^ 2 :=
          mul_le_mul_of_nonneg_right (mul_le_mul_of_nonneg_left hκ1 (by norm_num)) (by positivity)
        _ ≤ _ := hT
        _ ≤ 2 * Real.pi ^ 2 * (w * (((524288 : ℕ) : ℝ) ^ 2 / 3 - 1 / 12)) :=
          mul_le_mul (by linarith) (mul_le_mul_of_nonneg_right hwR hv.le) (by positivity) (by positivity)
    · rw [hn]; norm_num
  unfold uint6Table at hrow
  simp only [List.mem_cons, Prod.mk.injEq, List.not_mem_nil, or_false] at hrow
  rcases hrow with ⟨rfl, rfl, rfl, rfl⟩ | ⟨rfl, rfl, rfl, rfl⟩ | ⟨rfl, rfl, rfl, rfl⟩ | ⟨rfl, rfl, rfl, rfl⟩
  · refine main (18 / 25) 0.32851 _ (by norm_num) (by norm_num) (by norm_num) (exp_neg_le _ _ (by norm_num) (by norm_num)
      (by norm_num [Finset.sum_range_succ, Nat.factorial])) (by norm_num) (by norm_num) (by norm_num)
  · refine main (2 / 3) 0.40547 _ (by norm_num) (by norm_num) (by norm_num) (exp_neg_le _ _ (by norm_num) (by norm_num)
      (by norm_num [Finset.sum_range_succ, Nat.factorial])) (by norm_num) (by norm_num) (by norm_num)
  · refine main (11 / 20) 0.59784 _ (by norm_num) (by norm_num) (by norm_num) (exp_neg_le _ _ (by norm_num) (by norm_num)
      (by norm_num [Finset.sum_range_succ, Nat.factorial])) (by norm_num) (by norm_num) (by norm_num)
  · refine main (1 / 2) 0.69315 _ (by norm_num) (by norm_num) (by norm_num) (exp_neg_le _ _ (by norm_num) (by norm_num)
      (by norm_num [Finset.sum_range_succ, Nat.factorial])) (by norm_num) (by norm_num) (by norm_num)

/-- Encrypting with this mask, bootstrapping with `f` and decrypting gives `F` of the message. -/
def PbsDecrypts (P : Params) (ck : CloudKey O) (s0 : List Torus) (fl : ℚ → ℚ) (k : ℕ)
    (f : ℤ → Option ℤ) (F : ℕ → ℤ) (msg : ℤ) (sample : ℚ) (st : EvState O) (a : Mask P.tlweLv0.N) : Prop :=
  ∃ c st' out,
    encryptLWEMessage fl P (newTLWELv0 P) msg ((2 ^ k : ℕ) : ℤ) s0 a.draw sample = some c ∧
    bootstrapFunc fl P (st.setLw (.user 0) c) (.user 0) f ((2 ^ k : ℕ) : ℤ) ck.bootstrappingKey
      ck.keySwitchingKey ck.decompositionOffset = some (st', out) ∧
    decryptLWEMessage P out ((2 ^ k : ℕ) : ℤ) s0
      = some (F (msg % ((2 ^ k : ℕ) : ℤ)).toNat % ((2 ^ k : ℕ) : ℤ))

/-- **C73**, what holds: at Uint1 to Uint5, for every function and message, the fraction of masks for which the
bootstrapping does not decrypt to the function's value although its noise is below half a message step is at most
1/128. At Uint6 to Uint8 this is false: C73_false6, C73_levels, C73_false. -/
theorem C73_partial (level : SecurityLevel) (k E w m : ℕ) (hrow : (level, k, E, w, m) ∈ driftTable)
    (L : FourierLaws O) (hd : O.deg = (paramsFor level).trgswLv1.N)
    {D β κ : ℕ} {ck : CloudKey O} {s0 s1 : List Torus} (K : KeysOK (paramsFor level) L D β κ ck s0 s1)
    (hs0 : (paramsFor level).tlweLv0.N ≤ s0.length) (fl : ℚ → ℚ) (hfl : IsRound fl)
    (f : ℤ → Option ℤ) (F : ℕ → ℤ) (hf : ∀ x : ℕ, x < 2 ^ k → f x = some (F x))
    (msg : ℤ) (sample : ℚ) (st : EvState O) (hst : EvGood (paramsFor level) L st)
    (hw : weight (paramsFor level).tlweLv0.N s0 ≤ w) (hnoise : nrm (f64ToTorus sample) ≤ E)
    (hboot : ∀ c t, nrm (bootNoise (paramsFor level) L ck s0 s1 t c) < 2 ^ 30 / 2 ^ k) :
    MaskProbLe (fun a => ¬ PbsDecrypts (paramsFor level) ck s0 fl k f F msg sample st a) (1 / 128) := by
  have h := C72_pbs_levels level k E w m hrow L hd K hs0 fl hfl f F hf msg sample st hst hw hnoise
  have hm : 7 ≤ m := by
    unfold driftTable at hrow
    simp only [List.mem_cons, Prod.mk.injEq, List.not_mem_nil, or_false] at hrow
    omega
  have hle : ((2 : ℝ) ^ m)⁻¹ ≤ 1 / 128 := by
    rw [one_div]
    refine inv_anti₀ (by norm_num) ?_
    calc (128 : ℝ) = 2 ^ 7 := by norm_num
      _ ≤ 2 ^ m := pow_le_pow_right₀ (by norm_num) hm
  refine le_trans ?_ (h.mono hle)
  have hsub : {a | ¬ PbsDecrypts (paramsFor level) ck s0 fl k f F msg sample st a}
      ⊆ {a | ¬ PbsRight (paramsFor level) L ck s0 s1 fl k f F msg sample st a} := by
    intro a ha hr
    obtain ⟨c, t, st', out, h1, -, h3, -, h5⟩ := hr
    exact ha ⟨c, st', out, h1, h3, h5 (hboot c t)⟩
  exact_mod_cast Set.ncard_le_ncard hsub (Set.toFinite _)

/-- **C73**, the failure: at Uint8, with the exact transform, keys and cloud key made by the library's key generation
with all noise samples zero, no noise in the encryption and the identity function, encrypting the message 128 and
bootstrapping fails to decrypt to 128 for at least a fifth of all masks. (The noise of
the bootstrapping is below half a step for every mask, so the failures are due to rounding alone.) -/
theorem C73_false : ∃ (s0 s1 : List Torus) (R : KeyGenRand) (schedK schedB : List ℕ)
    (ck : CloudKey (exactOps (paramsFor 8).trgswLv1.N)) (st : EvState (exactOps (paramsFor 8).trgswLv1.N)),
    IsBinary s0 ∧ IsBinary s1 ∧ newCloudKey (paramsFor 8) _ s0 s1 R schedK schedB = some (true, ck) ∧
    EvGood (paramsFor 8) (exL (C63_wellFormed 8)) st ∧
    MaskProbGe (fun a => ¬ PbsDecrypts (paramsFor 8) ck s0 rne 8 some (fun x => (x : ℤ)) 128 0 st a) (1 / 5) := by
  have W := C63_wellFormed 8
  have h0 : (paramsFor 8).tlweLv0.N ≤ (onesKey 1160).length := le_of_eq (length_onesKey 1160).symm
  have h1 : (unitKey 2048).length = (paramsFor 8).trgswLv1.N := length_tab _ _
  let R : KeyGenRand := ⟨fun _ _ _ _ => 7, fun _ _ _ => 0, fun _ _ _ => 5, fun _ _ _ => 0⟩
  have hdO : (exactOps (paramsFor 8).trgswLv1.N).deg = (paramsFor 8).trgswLv1.N := rfl
  obtain ⟨sK, sB, ck, hck⟩ := exists_cloudKey W (exL W) hdO (onesKey 1160) (unitKey 2048) R h0 h1 (isBinary_unitKey _)
  have hz : nrm (f64ToTorus 0) = 0 := by rw [f64ToTorus_zero', nrm_zero]
  obtain ⟨K, -⟩ := keysOK_of_newCloudKey (D := 0) (D1 := 0) (β := 0) (κ := 0) W (exL W) hdO (exL_accurate W _ _)
    (exL_mulAccurate W _) (onesKey 1160) (unitKey 2048) R h0 h1 (isBinary_onesKey _) (isBinary_unitKey _)
    (fun _ _ _ _ _ _ => le_of_eq hz) (fun _ _ _ _ _ _ => le_of_eq hz) sK sB ck hck
  obtain ⟨st, -, hst, -⟩ := newEvaluator_good W (exL W) hdO (fun _ => ⟨[], []⟩) (fun _ => [])
  refine ⟨onesKey 1160, unitKey 2048, R, sK, sB, ck, st, isBinary_onesKey _, isBinary_unitKey _, hck, hst, ?_⟩
  have hw : weight (paramsFor 8).tlweLv0.N (onesKey 1160) = 1160 := weight_onesKey 1160
  have hw1 : weight (paramsFor 8).trgswLv1.N (unitKey 2048) = 1 := weight_unitKey 2048 (by norm_num)
  have main := C73_levels 8 8 500 (1 / 5) (Or.inl ⟨rfl, rfl, rfl, rfl⟩) (exL W) hdO K h0 rne isRound_rne 0 st hst
    (by rw [hw]; norm_num) (by rw [hz]; positivity)
  refine le_trans main ?_
  have hsub : {a | PbsWrong (paramsFor 8) (exL W) ck (onesKey 1160) (unitKey 2048) rne 8 (2 ^ (8 - 1)) 0 st a}
      ⊆ {a | ¬ PbsDecrypts (paramsFor 8) ck (onesKey 1160) rne 8 some (fun x => (x : ℤ)) 128 0 st a} := by
    rintro a ⟨c, t, st', out, x, hne, e1, e2, e3, -, h5⟩ ⟨c', st'', out', f1, f2, f3⟩
    have e128 : (2 : ℤ) ^ (8 - 1) = 128 := by norm_num
    rw [e128] at e1 hne
    obtain rfl : c = c' := Option.some.inj (e1.symm.trans f1)
    obtain ⟨rfl, rfl⟩ : st' = st'' ∧ out = out' := by
      have := Option.some.inj (e3.symm.trans f2)
      exact ⟨congrArg Prod.fst this, congrArg Prod.snd this⟩
    have hb := nrm_bootNoise W (exL W) hdO K t c
    rw [hw, hw1] at hb
    have hbb : bootBound (paramsFor 8) 0 (0 + 0) 0 1160 1 < 2 ^ 30 / 2 ^ 8 := by
      show (1 + 1) * (1 + 1160 * (1 + 2 ^ (32 - 1 * 22))) + 1160 * (2 * 1 * 2048 * 2 ^ (22 - 1) * (0 + 0) + 0 * (1 + 1)) + 1
        + (1 * 2 ^ (31 - 7 * 3) + 2048 * (3 * 0)) < 2 ^ 30 / 2 ^ 8
      norm_num
    rw [h5 (lt_of_le_of_lt hb hbb)] at f3
    refine hne ((Option.some.inj f3).trans ?_)
    norm_num
  exact_mod_cast Set.ncard_le_ncard hsub (Set.toFinite _)

/-- **C73**, the failure at Uint6: with the exact transform, keys and cloud key made by the library's key generation with
all noise samples zero and every bit of the secret key set, no noise in the encryption and the identity function,
encrypting the message 32 and bootstrapping fails to decrypt to 32 for at least one mask in 41. -/
theorem C73_false6 : ∃ (s0 s1 : List Torus) (R : KeyGenRand) (schedK schedB : List ℕ)
    (ck : CloudKey (exactOps (paramsFor 6).trgswLv1.N)) (st : EvState (exactOps (paramsFor 6).trgswLv1.N)),
    IsBinary s0 ∧ IsBinary s1 ∧ newCloudKey (paramsFor 6) _ s0 s1 R schedK schedB = some (true, ck) ∧
    EvGood (paramsFor 6) (exL (C63_wellFormed 6)) st ∧
    MaskProbGe (fun a => ¬ PbsDecrypts (paramsFor 6) ck s0 rne 6 some (fun x => (x : ℤ)) 32 0 st a) ((1 / 41 : ℚ) : ℝ) := by
  have W := C63_wellFormed 6
  have h0 : (paramsFor 6).tlweLv0.N ≤ (onesKey 1071).length := le_of_eq (length_onesKey 1071).symm
  have h1 : (unitKey 2048).length = (paramsFor 6).trgswLv1.N := length_tab _ _
  let R : KeyGenRand := ⟨fun _ _ _ _ => 7, fun _ _ _ => 0, fun _ _ _ => 5, fun _ _ _ => 0⟩
  have hdO : (exactOps (paramsFor 6).trgswLv1.N).deg = (paramsFor 6).trgswLv1.N := rfl
  obtain ⟨sK, sB, ck, hck⟩ := exists_cloudKey W (exL W) hdO (onesKey 1071) (unitKey 2048) R h0 h1 (isBinary_unitKey _)
  have hz : nrm (f64ToTorus 0) = 0 := by rw [f64ToTorus_zero', nrm_zero]
  obtain ⟨K, -⟩ := keysOK_of_newCloudKey (D := 0) (D1 := 0) (β := 0) (κ := 0) W (exL W) hdO (exL_accurate W _ _)
    (exL_mulAccurate W _) (onesKey 1071) (unitKey 2048) R h0 h1 (isBinary_onesKey _) (isBinary_unitKey _)
    (fun _ _ _ _ _ _ => le_of_eq hz) (fun _ _ _ _ _ _ => le_of_eq hz) sK sB ck hck
  obtain ⟨st, -, hst, -⟩ := newEvaluator_good W (exL W) hdO (fun _ => ⟨[], []⟩) (fun _ => [])
  refine ⟨onesKey 1071, unitKey 2048, R, sK, sB, ck, st, isBinary_onesKey _, isBinary_unitKey _, hck, hst, ?_⟩
  have hw : weight (paramsFor 6).tlweLv0.N (onesKey 1071) = 1071 := weight_onesKey 1071
  have hw1 : weight (paramsFor 6).trgswLv1.N (unitKey 2048) = 1 := weight_unitKey 2048 (by norm_num)
  have main := C73_uint6 1034 (1 / 2) 0.69315 (1 / 41) (by unfold uint6Table; simp) (exL W) hdO K h0 rne isRound_rne 0 st hst
    (by rw [hw]; norm_num) (by rw [hz]; positivity)
  refine le_trans main ?_
  have hsub : {a | PbsWrong (paramsFor 6) (exL W) ck (onesKey 1071) (unitKey 2048) rne 6 (2 ^ (6 - 1)) 0 st a}
      ⊆ {a | ¬ PbsDecrypts (paramsFor 6) ck (onesKey 1071) rne 6 some (fun x => (x : ℤ)) 32 0 st a} := by
    rintro a ⟨c, t, st', out, x, hne, e1, e2, e3, -, h5⟩ ⟨c', st'', out', f1, f2, f3⟩
    have e32 : (2 : ℤ) ^ (6 - 1) = 32 := by norm_num
    rw [e32] at e1 hne
    obtain rfl : c = c' := Option.some.inj (e1.symm.trans f1)
    obtain ⟨rfl, rfl⟩ : st' = st'' ∧ out = out' := by
      have := Option.some.inj (e3.symm.trans f2)
      exact ⟨congrArg Prod.fst this, congrArg Prod.snd this⟩
    have hb := nrm_bootNoise W (exL W) hdO K t c
    rw [hw, hw1] at hb
    have hbb : bootBound (paramsFor 6) 0 (0 + 0) 0 1071 1 < 2 ^ 30 / 2 ^ 6 := by
      show (1 + 1) * (1 + 1071 * (1 + 2 ^ (32 - 1 * 22))) + 1071 * (2 * 1 * 2048 * 2 ^ (22 - 1) * (0 + 0) + 0 * (1 + 1)) + 1
        + (1 * 2 ^ (31 - 6 * 3) + 2048 * (3 * 0)) < 2 ^ 30 / 2 ^ 6
      norm_num
    rw [h5 (lt_of_le_of_lt hb hbb)] at f3
    refine hne ((Option.some.inj f3).trans ?_)
    norm_num
  exact_mod_cast Set.ncard_le_ncard hsub (Set.toFinite _)

/-- The hypotheses of `C73_partial` hold together: Uint4, a key with every bit set, no noise samples. -/
example (msg : ℤ) : ∃ (s0 s1 : List Torus) (R : KeyGenRand) (schedK schedB : List ℕ)
    (ck : CloudKey (exactOps (paramsFor 4).trgswLv1.N)) (st : EvState (exactOps (paramsFor 4).trgswLv1.N)),
    newCloudKey (paramsFor 4) _ s0 s1 R schedK schedB = some (true, ck) ∧
    MaskProbLe (fun a => ¬ PbsDecrypts (paramsFor 4) ck s0 rne 4 (fun x => some (x ^ 3)) (fun x => (x : ℤ) ^ 3) msg 0 st a)
      (1 / 128) := by
  have W := C63_wellFormed 4
  have h0 : (paramsFor 4).tlweLv0.N ≤ (onesKey 820).length := le_of_eq (length_onesKey 820).symm
  have h1 : (unitKey 2048).length = (paramsFor 4).trgswLv1.N := length_tab _ _
  let R : KeyGenRand := ⟨fun _ _ _ _ => 7, fun _ _ _ => 0, fun _ _ _ => 5, fun _ _ _ => 0⟩
  have hdO : (exactOps (paramsFor 4).trgswLv1.N).deg = (paramsFor 4).trgswLv1.N := rfl
  obtain ⟨sK, sB, ck, hck⟩ := exists_cloudKey W (exL W) hdO (onesKey 820) (unitKey 2048) R h0 h1 (isBinary_unitKey _)
  have hz : nrm (f64ToTorus 0) = 0 := by rw [f64ToTorus_zero', nrm_zero]
  obtain ⟨K, -⟩ := keysOK_of_newCloudKey (D := 0) (D1 := 0) (β := 0) (κ := 0) W (exL W) hdO (exL_accurate W _ _)
    (exL_mulAccurate W _) (onesKey 820) (unitKey 2048) R h0 h1 (isBinary_onesKey _) (isBinary_unitKey _)
    (fun _ _ _ _ _ _ => le_of_eq hz) (fun _ _ _ _ _ _ => le_of_eq hz) sK sB ck hck
  obtain ⟨st, -, hst, -⟩ := newEvaluator_good W (exL W) hdO (fun _ => ⟨[], []⟩) (fun _ => [])
  have hw : weight (paramsFor 4).tlweLv0.N (onesKey 820) = 820 := weight_onesKey 820
  have hw1 : weight (paramsFor 4).trgswLv1.N (unitKey 2048) = 1 := weight_unitKey 2048 (by norm_num)
  have hrow : ((4 : ℤ), 4, 2 ^ 17, 820, 41) ∈ driftTable := by unfold driftTable; simp
  refine ⟨onesKey 820, unitKey 2048, R, sK, sB, ck, st, hck, C73_partial 4 4 (2 ^ 17) 820 41 hrow (exL W) hdO K h0 rne
    isRound_rne (fun x => some (x ^ 3)) (fun x => (x : ℤ) ^ 3) (fun x _ => rfl) msg 0 st hst (le_of_eq hw)
    (by rw [hz]; positivity) fun c t => ?_⟩
  have hb := nrm_bootNoise W (exL W) hdO K t c
  rw [hw, hw1] at hb
  refine lt_of_le_of_lt hb ?_
  show (1 + 1) * (1 + 820 * (1 + 2 ^ (32 - 1 * 22))) + 820 * (2 * 1 * 2048 * 2 ^ (22 - 1) * (0 + 0) + 0 * (1 + 1)) + 1
    + (1 * 2 ^ (31 - 5 * 3) + 2048 * (3 * 0)) < 2 ^ 30 / 2 ^ 4
  norm_num

end GoTfhe
