import Verif.Lemmas.Chernoff
import Verif.Lemmas.Bootstrap
import Verif.Spec.Mask

/-!
# How often rounding moves the phase far

The mask of a fresh encryption is uniform. The rounding errors of its words are uniform and independent, so their sum
over the key bits that are set is rarely large.
-/

namespace GoTfhe

open Finset Real

/-- The rounding error of one word. -/
def roundErr (P : Params) (x : ℕ) : ℤ := nearest2N P.trgswLv1.N x * 2 ^ (31 - P.trgswLv1.NBIT) - x

theorem roundErr_eq {P : Params} (W : WellFormed P) (x : ℕ) :
    roundErr P x = 2 ^ (30 - P.trgswLv1.NBIT) - ((x + 2 ^ (30 - P.trgswLv1.NBIT)) % (2 * 2 ^ (30 - P.trgswLv1.NBIT)) : ℕ) := by
  unfold roundErr nearest2N
  have hn := W.nbit_le
  have e3 : 2 ^ (31 - P.trgswLv1.NBIT) = 2 * 2 ^ (30 - P.trgswLv1.NBIT) := by rw [← pow_succ']; congr 1; omega
  have e3' : (2 : ℤ) ^ (31 - P.trgswLv1.NBIT) = 2 * 2 ^ (30 - P.trgswLv1.NBIT) := by exact_mod_cast e3
  have e1 : 2 ^ 32 = (2 * 2 ^ (30 - P.trgswLv1.NBIT)) * (2 * 2 ^ P.trgswLv1.NBIT) := by
    rw [← pow_succ', ← pow_succ', ← pow_add]; congr 1; omega
  have e2 : 2 ^ 31 = 2 ^ (30 - P.trgswLv1.NBIT) * (2 * 2 ^ P.trgswLv1.NBIT) := by
    rw [← pow_succ', ← pow_add]; congr 1; omega
  rw [e3', W.pow2, e1, e2, ← add_mul, Nat.mul_div_mul_right _ _ (by positivity)]
  generalize hh : 2 ^ (30 - P.trgswLv1.NBIT) = h
  have hh' : (2 : ℤ) ^ (30 - P.trgswLv1.NBIT) = h := by rw [← hh]; push_cast; rfl
  rw [hh']
  have := Nat.div_add_mod (x + h) (2 * h)
  have this' : (2 * (h : ℤ)) * ((x + h) / (2 * h) : ℕ) + ((x + h) % (2 * h) : ℕ) = x + h := by exact_mod_cast this
  linarith

def toFinEquiv : Torus ≃ Fin (2 ^ 32) := ⟨BitVec.toFin, BitVec.ofFin, fun _ => rfl, fun _ => rfl⟩

theorem val_toFinEquiv (y : Torus) : ((toFinEquiv y : Fin (2 ^ 32)) : ℕ) = y.toNat := rfl

/-- The exponential moments of the centred rounding error of a uniform word. -/
theorem mgf_roundErr {P : Params} (W : WellFormed P) (σ : Fin (2 ^ 32) ≃ Torus) (t : ℝ) :
    ∑ x, exp (t * ((roundErr P (σ x).toNat : ℝ) - 1 / 2))
      ≤ (Fintype.card (Fin (2 ^ 32)) : ℝ) * exp (t ^ 2 * ((2 ^ (30 - P.trgswLv1.NBIT)) ^ 2 / 3) / 2) := by
  have hn := W.nbit_le
  -- move to the range
  have h1 : ∑ x, exp (t * ((roundErr P (σ x).toNat : ℝ) - 1 / 2))
      = ∑ y : Fin (2 ^ 32), exp (t * ((roundErr P (y : ℕ) : ℝ) - 1 / 2)) :=
    Fintype.sum_equiv (σ.trans toFinEquiv) _ _ fun x => by rw [Equiv.trans_apply, val_toFinEquiv]
  obtain ⟨h, hh⟩ : ∃ h : ℕ, h = 2 ^ (30 - P.trgswLv1.NBIT) := ⟨_, rfl⟩
  have hpos : 0 < h := by rw [hh]; positivity
  have eQ : 2 ^ 32 = (2 * h) * (2 * 2 ^ P.trgswLv1.NBIT) := by
    rw [hh, ← pow_succ', ← pow_succ', ← pow_add]
    exact congrArg (fun k => 2 ^ k) (show 32 = _ by omega)
  have hr : ∀ y : ℕ, ((roundErr P y : ℤ) : ℝ) = (h : ℝ) - ((y + h) % (2 * h) : ℕ) := by
    intro y
    have := roundErr_eq W y
    rw [← hh] at this
    rw [this, Int.cast_sub, Int.cast_natCast, hh]
    push_cast
    rfl
  rw [h1, Fin.sum_univ_eq_sum_range (fun y => exp (t * ((roundErr P y : ℝ) - 1 / 2))) (2 ^ 32), Fintype.card_fin]
  have h2 : ∀ y : ℕ, exp (t * ((roundErr P y : ℝ) - 1 / 2))
      = (fun k : ℕ => exp (-t * ((k : ℝ) - h + 1 / 2))) ((y + h) % (2 * h)) := by
    intro y
    rw [hr]
    refine congrArg exp ?_
    ring
  rw [sum_congr rfl fun y _ => h2 y, eQ,
    sum_shift_mod (2 * h) _ h (by positivity) (by omega) (fun k : ℕ => exp (-t * ((k : ℝ) - h + 1 / 2)))]
  have h3 := mgf_uniform h (-t)
  have h4 := mul_le_mul_of_nonneg_left h3 (show (0 : ℝ) ≤ ((2 * 2 ^ P.trgswLv1.NBIT : ℕ) : ℝ) by positivity)
  refine h4.trans (le_of_eq ?_)
  rw [neg_sq, show ((2 : ℝ) ^ (30 - P.trgswLv1.NBIT)) = (h : ℝ) by rw [hh]; push_cast; rfl,
    show t ^ 2 * (h : ℝ) ^ 2 / 6 = t ^ 2 * ((h : ℝ) ^ 2 / 3) / 2 by ring]
  push_cast
  ring

/-- The rounded phase minus the phase: the error of the body minus the errors of the mask words of the set key bits. -/
theorem msPhase_exact {P : Params} (W : WellFormed P) (c s : List Torus) :
    ∃ ρ : ℤ, (2 * P.trgswLv1.N : ℤ) ∣ msPhase P.trgswLv1.N P.tlweLv0.N c s - ρ ∧
      ρ * 2 ^ (31 - P.trgswLv1.NBIT) - (phase P.tlweLv0.N c s).toInt = roundErr P (at' c P.tlweLv0.N).toNat
        - ∑ i ∈ range P.tlweLv0.N, ((at' s i).toNat : ℤ) * roundErr P (at' c i).toNat := by
  obtain ⟨z, hz⟩ := toInt_phase_congr P.tlweLv0.N c s
  refine ⟨msPhase P.trgswLv1.N P.tlweLv0.N c s + z * (2 * P.trgswLv1.N), ⟨-z, by ring⟩, ?_⟩
  have e1 : (2 : ℤ) ^ 32 = 2 ^ (31 - P.trgswLv1.NBIT) * (2 * 2 ^ P.trgswLv1.NBIT) := by
    have := W.nbit_le
    rw [← pow_succ', ← pow_add]; congr 1; omega
  have hN : (P.trgswLv1.N : ℤ) = 2 ^ P.trgswLv1.NBIT := by rw [W.pow2]; push_cast; rfl
  unfold roundErr
  set M : ℤ := 2 ^ (31 - P.trgswLv1.NBIT) with hM
  rw [hz, e1, hN]
  unfold msPhase
  simp only [mul_sub, Finset.sum_sub_distrib, ← mul_assoc, ← Finset.sum_mul]
  ring

theorem near_of_small {P : Params} (W : WellFormed P) (c s : List Torus) (d : ℕ)
    (h : 2 ^ (30 - P.trgswLv1.NBIT)
      + |∑ i ∈ range P.tlweLv0.N, ((at' s i).toNat : ℤ) * roundErr P (at' c i).toNat| ≤ d) : Near P c s d := by
  obtain ⟨ρ, h1, h2⟩ := msPhase_exact W c s
  refine ⟨ρ, h1, ?_⟩
  have hd := nearest2N_dist W (at' c P.tlweLv0.N).toNat
  rw [h2]
  refine (abs_sub _ _).trans ?_
  unfold roundErr at h ⊢
  linarith

/-- Counting the masks whose rounding errors add up to more than `d`. The ciphertext may use any bijection of each mask
word. -/
theorem card_not_small {P : Params} (W : WellFormed P) (s : List Torus) (hs : IsBinary s) (w d : ℕ) (hw0 : 0 < w)
    (hw : weight P.tlweLv0.N s ≤ w) (hd : 2 ^ (30 - P.trgswLv1.NBIT) + w ≤ d)
    (c : Mask P.tlweLv0.N → List Torus) (σ : ℕ → Fin (2 ^ 32) ≃ Torus)
    (hc : ∀ a (i : Fin P.tlweLv0.N), at' (c a) i = σ i (a i)) (bad : Finset (Mask P.tlweLv0.N))
    (hbad : ∀ a ∈ bad, ¬ (2 ^ (30 - P.trgswLv1.NBIT)
      + |∑ i ∈ range P.tlweLv0.N, ((at' s i).toNat : ℤ) * roundErr P (at' (c a) i).toNat| ≤ d)) :
    (bad.card : ℝ) ≤ driftTail P w d * (2 ^ 32) ^ P.tlweLv0.N := by
  classical
  set h : ℝ := 2 ^ (30 - P.trgswLv1.NBIT) with hh
  have hpos : 0 < h := by positivity
  have hbit : ∀ i, ((at' s i).toNat : ℝ) = 0 ∨ ((at' s i).toNat : ℝ) = 1 := by
    intro i
    rcases isBinary_at' hs i with e | e <;> rw [e]
    · left; norm_num
    · right; rw [show (1 : Torus).toNat = 1 from rfl]; norm_num
  have hsw : ∑ i : Fin P.tlweLv0.N, ((at' s i).toNat : ℝ) ≤ w := by
    rw [Fin.sum_univ_eq_sum_range (fun i => ((at' s i).toNat : ℝ)) P.tlweLv0.N]
    have : ((weight P.tlweLv0.N s : ℕ) : ℝ) ≤ w := by exact_mod_cast hw
    unfold weight at this
    push_cast at this
    exact this
  have hd' : h + w ≤ (d : ℝ) := by rw [hh]; exact_mod_cast hd
  have hwR : (0 : ℝ) < w := by exact_mod_cast hw0
  set T : ℝ := (d : ℝ) - h - w / 2 with hT
  have hT0 : 0 ≤ T := by rw [hT]; linarith
  let f : Fin P.tlweLv0.N → Fin (2 ^ 32) → ℝ := fun i x => ((at' s i).toNat : ℝ) * ((roundErr P (σ i x).toNat : ℝ) - 1 / 2)
  let v : Fin P.tlweLv0.N → ℝ := fun i => ((at' s i).toNat : ℝ) * (h ^ 2 / 3)
  have hV : ∑ i, v i ≤ w * (h ^ 2 / 3) := by
    simp only [v]
    rw [← sum_mul]
    exact mul_le_mul_of_nonneg_right hsw (by positivity)
  have hM : ∀ (q : ℝ), q ^ 2 = 1 → ∀ i t, ∑ x, exp (t * (q * f i x))
      ≤ (Fintype.card (Fin (2 ^ 32)) : ℝ) * exp (t ^ 2 * v i / 2) := by
    intro q hq i t
    rcases hbit i with e | e
    · simp only [f, v, e, zero_mul, mul_zero, exp_zero, zero_div, sum_const, card_univ, nsmul_eq_mul, mul_one, le_refl]
    · simp only [f, v, e, one_mul]
      have := mgf_roundErr W (σ i) (t * q)
      rw [mul_pow, hq, mul_one] at this
      simpa only [mul_assoc] using this
  -- the two tails
  let badP := bad.filter fun a => T ≤ ∑ i, f i (a i)
  let badM := bad.filter fun a => T ≤ ∑ i, -1 * f i (a i)
  have hcov : bad ⊆ badP ∪ badM := by
    intro a ha
    rw [mem_union, mem_filter, mem_filter]
    by_contra hno
    push Not at hno
    have h1 := hno.1 ha
    have h2 := hno.2 ha
    rw [← mul_sum] at h2
    refine hbad a ha ?_
    have e : ∑ i, f i (a i) = ((∑ i ∈ range P.tlweLv0.N, ((at' s i).toNat : ℤ) * roundErr P (at' (c a) i).toNat : ℤ) : ℝ)
        - (∑ i : Fin P.tlweLv0.N, ((at' s i).toNat : ℝ)) / 2 := by
      rw [← Fin.sum_univ_eq_sum_range (fun i => ((at' s i).toNat : ℤ) * roundErr P (at' (c a) i).toNat) P.tlweLv0.N]
      push_cast
      rw [sum_div, ← sum_sub_distrib]
      refine sum_congr rfl fun i _ => ?_
      rw [hc]
      simp only [f]; ring
    rw [e] at h1 h2
    have hw1 : 0 ≤ ∑ i : Fin P.tlweLv0.N, ((at' s i).toNat : ℝ) := sum_nonneg fun i _ => by positivity
    have : (((2 : ℤ) ^ (30 - P.trgswLv1.NBIT)
        + |∑ i ∈ range P.tlweLv0.N, ((at' s i).toNat : ℤ) * roundErr P (at' (c a) i).toNat| : ℤ) : ℝ) ≤ ((d : ℤ) : ℝ) := by
      rw [Int.cast_add, Int.cast_abs]
      have h3 : |((∑ i ∈ range P.tlweLv0.N, ((at' s i).toNat : ℤ) * roundErr P (at' (c a) i).toNat : ℤ) : ℝ)| ≤ (d : ℝ) - h := by
        rw [abs_le]
        constructor <;> linarith
      have h4 : (((2 : ℤ) ^ (30 - P.trgswLv1.NBIT) : ℤ) : ℝ) = h := by rw [hh]; push_cast; rfl
      rw [h4]
      push_cast at h3 ⊢
      linarith
    exact_mod_cast this
  have hP := count_tail f v _ T (by simpa using hM 1 (by norm_num)) hV (by positivity) hT0 badP
    (fun a ha => (mem_filter.1 ha).2)
  have hN := count_tail (fun i x => -1 * f i x) v _ T (hM (-1) (by norm_num)) hV (by positivity) hT0 badM
    (fun a ha => (mem_filter.1 ha).2)
  have hcard : (bad.card : ℝ) ≤ badP.card + badM.card := by
    exact_mod_cast (card_le_card hcov).trans (card_union_le _ _)
  have e : driftTail P w d = 2 * exp (-(T ^ 2 / (2 * (w * (h ^ 2 / 3))))) := by
    unfold driftTail
    rw [← hh, ← hT]
    congr 3
    field_simp
  rw [e]
  rw [Fintype.card_fin] at hP hN
  push_cast at hP hN
  linarith

/-- Counting the masks for which rounding moves the phase by more than `d`. -/
theorem card_not_near {P : Params} (W : WellFormed P) (s : List Torus) (hs : IsBinary s) (w d : ℕ) (hw0 : 0 < w)
    (hw : weight P.tlweLv0.N s ≤ w) (hd : 2 ^ (30 - P.trgswLv1.NBIT) + w ≤ d)
    (c : Mask P.tlweLv0.N → List Torus) (σ : ℕ → Fin (2 ^ 32) ≃ Torus)
    (hc : ∀ a (i : Fin P.tlweLv0.N), at' (c a) i = σ i (a i)) (bad : Finset (Mask P.tlweLv0.N))
    (hbad : ∀ a ∈ bad, ¬ Near P (c a) s d) :
    (bad.card : ℝ) ≤ driftTail P w d * (2 ^ 32) ^ P.tlweLv0.N :=
  card_not_small W s hs w d hw0 hw hd c σ hc bad fun a ha h => hbad a ha (near_of_small W _ _ _ h)

end GoTfhe
