import Verif.Lemmas.Bootstrap
import Verif.Lemmas.DriftCount
import Verif.Lemmas.KeyNoise
import Verif.Lemmas.Gates

/-!
# What the bootstrapping sees of its input

The blind rotation rounds every coefficient to a multiple of `2^21` (degree 1024), so that it cannot tell apart the two
numbers of a pair `2j`, `2j+1`. Up to this, a fixed number plus `±1` or `±2` times a uniform one is uniform.
-/

namespace GoTfhe

open Finset

variable {O : FourierOps}

/-- The numbers belong to the same pair. -/
def SamePair (x y : Torus) : Prop := x.toNat / 2 = y.toNat / 2

theorem toNat_two_mul (m : Torus) : (2 * m : Torus).toNat = 2 * m.toNat % 2 ^ 32 := by
  rw [BitVec.toNat_mul]; rfl

theorem toNat_neg_two_mul (m : Torus) : (-2 * m : Torus).toNat = 4294967294 * m.toNat % 2 ^ 32 := by
  rw [BitVec.toNat_mul]; rfl

/-- Multiplying by `±1` or `±2` and adding a constant, up to pairs, is a bijection. -/
theorem exists_pairEquiv (κ : Torus) (hκ : κ = 1 ∨ κ = -1 ∨ κ = 2 ∨ κ = -2) (c : Torus) :
    ∃ e : Torus ≃ Torus, ∀ m, SamePair (e m) (c + κ * m) := by
  have two : ∀ f : Torus → Torus, (∀ m m', (f m).toNat % 2 = (f m').toNat % 2) →
      (∀ m m', f m = f m' → (m.toNat + 2 ^ 31 * (m.toNat / 2 ^ 31)) % 2 ^ 32 = (m'.toNat + 2 ^ 31 * (m'.toNat / 2 ^ 31)) % 2 ^ 32) →
      ∃ e : Torus ≃ Torus, ∀ m, SamePair (e m) (f m) := by
    intro f hpar hf
    let g : Torus → Torus := fun m => BitVec.ofNat 32 (2 * ((f m).toNat / 2) + m.toNat / 2 ^ 31)
    have hg : ∀ m, (g m).toNat = 2 * ((f m).toNat / 2) + m.toNat / 2 ^ 31 := by
      intro m
      show (BitVec.ofNat 32 _).toNat = _
      rw [BitVec.toNat_ofNat]
      have := (f m).isLt
      have := m.isLt
      omega
    have hinj : Function.Injective g := by
      intro m m' h
      have h1 : (g m).toNat = (g m').toNat := by rw [h]
      rw [hg, hg] at h1
      have hm := m.isLt
      have hm' := m'.isLt
      have hp := hpar m m'
      have e1 : f m = f m' := BitVec.eq_of_toNat_eq (by omega)
      have := hf m m' e1
      exact BitVec.eq_of_toNat_eq (by omega)
    haveI : Finite Torus := Finite.of_equiv _ toFinEquiv.symm
    refine ⟨Equiv.ofBijective g (Finite.injective_iff_bijective.1 hinj), fun m => ?_⟩
    show (g m).toNat / 2 = _
    rw [hg]
    have := m.isLt
    omega
  rcases hκ with rfl | rfl | rfl | rfl
  · refine ⟨Equiv.addLeft c, fun m => ?_⟩
    rw [one_mul]; rfl
  · refine ⟨(Equiv.neg _).trans (Equiv.addLeft c), fun m => ?_⟩
    rw [neg_one_mul]; rfl
  · refine two _ (fun m m' => ?_) fun m m' h => ?_
    · simp only [BitVec.toNat_add, toNat_two_mul]; omega
    · have h1 : (2 * m : Torus).toNat = (2 * m' : Torus).toNat := by rw [add_left_cancel h]
      rw [toNat_two_mul, toNat_two_mul] at h1
      have := m.isLt
      have := m'.isLt
      omega
  · refine two _ (fun m m' => ?_) fun m m' h => ?_
    · simp only [BitVec.toNat_add, toNat_neg_two_mul]; omega
    · have h0 : (2 * m : Torus) = 2 * m' := by
        have h0 := add_left_cancel h
        rwa [neg_mul, neg_mul, neg_inj] at h0
      have h1 : (2 * m : Torus).toNat = (2 * m' : Torus).toNat := by rw [h0]
      rw [toNat_two_mul, toNat_two_mul] at h1
      have := m.isLt
      have := m'.isLt
      omega

/-! ### Rounding -/

/-- The two ciphertexts are rounded alike. -/
structure SameRounding (P : Params) (c c' : List Torus) : Prop where
  near : ∀ i ≤ P.tlweLv0.N, nearest2N P.trgswLv1.N (at' c i).toNat = nearest2N P.trgswLv1.N (at' c' i).toNat
  mask : ∀ i < P.tlweLv0.N, aTilda P.trgswLv1.NBIT (at' c i) = aTilda P.trgswLv1.NBIT (at' c' i)
  body : bTilda P.trgswLv1.N P.trgswLv1.NBIT (at' c P.tlweLv0.N) = bTilda P.trgswLv1.N P.trgswLv1.NBIT (at' c' P.tlweLv0.N)

theorem SameRounding.blindAcc {P : Params} {c c' : List Torus} (h : SameRounding P c c') (L : FourierLaws O) (off : Torus)
    (bsk : List (TrgswF O)) (tv : Trlwe) (n : ℕ) (hn : n ≤ P.tlweLv0.N) :
    GoTfhe.blindAcc P L off bsk tv c n = GoTfhe.blindAcc P L off bsk tv c' n := by
  induction n with
  | zero => simp only [GoTfhe.blindAcc, h.body]
  | succ n ih => simp only [GoTfhe.blindAcc, ih (by omega), h.mask n (by omega)]

theorem SameRounding.bootOut {P : Params} {c c' : List Torus} (h : SameRounding P c c') (L : FourierLaws O) (ck : CloudKey O)
    (tv : Trlwe) : GoTfhe.bootOut P L ck tv c = GoTfhe.bootOut P L ck tv c' := by
  unfold GoTfhe.bootOut bootPure blindRot
  rw [h.blindAcc L _ _ _ _ le_rfl]

theorem SameRounding.msPhase {P : Params} {c c' : List Torus} (h : SameRounding P c c') (s : List Torus) :
    GoTfhe.msPhase P.trgswLv1.N P.tlweLv0.N c s = GoTfhe.msPhase P.trgswLv1.N P.tlweLv0.N c' s := by
  unfold GoTfhe.msPhase
  rw [h.near _ le_rfl]
  congr 1
  exact sum_congr rfl fun i hi => by rw [h.near i (mem_range.1 hi).le]

theorem SameRounding.bootNoise {P : Params} {c c' : List Torus} (h : SameRounding P c c') (L : FourierLaws O) (ck : CloudKey O)
    (s0 s1 : List Torus) (tv : Trlwe) : GoTfhe.bootNoise P L ck s0 s1 tv c = GoTfhe.bootNoise P L ck s0 s1 tv c' := by
  unfold GoTfhe.bootNoise
  rw [h.bootOut, h.msPhase]

section

variable {P : Params} (W : WellFormed P) (hb : P.trgswLv1.NBIT = 10)

include W hb

theorem nearest_eq (x : ℕ) : nearest2N P.trgswLv1.N x = ((x + 2 ^ 20) / 2 ^ 21 : ℕ) := by
  unfold nearest2N
  rw [W.pow2, hb]
  congr 1
  omega

theorem nearest_pair {x y : Torus} (h : SamePair x y) :
    nearest2N P.trgswLv1.N x.toNat = nearest2N P.trgswLv1.N y.toNat := by
  rw [nearest_eq W hb, nearest_eq W hb]
  unfold SamePair at h
  congr 1
  omega

omit W in
theorem aTilda_pair {x y : Torus} (h : SamePair x y) : aTilda P.trgswLv1.NBIT x = aTilda P.trgswLv1.NBIT y := by
  unfold aTilda
  rw [hb]
  unfold SamePair at h
  rw [BitVec.toNat_ushiftRight, BitVec.toNat_ushiftRight, BitVec.toNat_add, BitVec.toNat_add,
    show (1#32 <<< (31 - 10 - 1)).toNat = 2 ^ 20 from rfl, Nat.shiftRight_eq_div_pow, Nat.shiftRight_eq_div_pow]
  have hx := x.isLt
  have hy := y.isLt
  have : (x.toNat + 2 ^ 20) % 2 ^ 32 / 2 ^ (32 - 10 - 1) = (y.toNat + 2 ^ 20) % 2 ^ 32 / 2 ^ (32 - 10 - 1) := by omega
  rw [this]

/-- A body that rounds to `r` steps, of `2N + 1` possible ones. -/
def repBody (r : ℕ) : Torus := BitVec.ofNat 32 (min (r * 2 ^ 21) (2 ^ 32 - 1))

/-- How many steps the body is rounded to. -/
def bodyStep (x : Torus) : ℕ := (x.toNat + 2 ^ 20) / 2 ^ 21

omit W hb in
theorem bodyStep_lt (x : Torus) : bodyStep x < 2049 := by
  unfold bodyStep
  have := x.isLt
  omega

omit W hb in
theorem bodyStep_rep (x : Torus) : ((repBody (bodyStep x)).toNat + 2 ^ 20) / 2 ^ 21 = (x.toNat + 2 ^ 20) / 2 ^ 21 := by
  unfold repBody bodyStep
  rw [BitVec.toNat_ofNat]
  have := x.isLt
  omega

/-- A ciphertext whose mask agrees with `c` up to pairs and whose body is that of the same number of steps. -/
theorem sameRounding_rep (c : List Torus) (a : List Torus) (ha : a.length = P.tlweLv0.N)
    (h : ∀ i < P.tlweLv0.N, SamePair (at' a i) (at' c i)) :
    SameRounding P c (a ++ [repBody (bodyStep (at' c P.tlweLv0.N))]) := by
  have e1 : ∀ r, at' (a ++ [r]) P.tlweLv0.N = r := by
    intro r
    unfold at'
    rw [List.getD_eq_getElem?_getD, ← ha, List.getElem?_concat_length]
    rfl
  have e2 : ∀ r, ∀ i < P.tlweLv0.N, at' (a ++ [r]) i = at' a i := by
    intro r i hi
    unfold at'
    rw [List.getD_eq_getElem?_getD, List.getElem?_append_left (by omega), ← List.getD_eq_getElem?_getD]
  have e3 := bodyStep_rep (at' c P.tlweLv0.N)
  refine ⟨fun i hi => ?_, fun i hi => ?_, ?_⟩
  · rcases Nat.lt_or_eq_of_le hi with hi | rfl
    · rw [e2 _ i hi]
      exact (nearest_pair W hb (h i hi)).symm
    · rw [e1, nearest_eq W hb, nearest_eq W hb, e3]
  · rw [e2 _ i hi]
    exact (aTilda_pair hb (h i hi)).symm
  · rw [e1]
    unfold bTilda
    rw [hb]
    rw [Nat.shiftRight_eq_div_pow, Nat.shiftRight_eq_div_pow]
    exact congrArg (fun t : ℕ => (2 : ℤ) * P.trgswLv1.N - (t : ℤ)) e3.symm

theorem roundErr_pair {x y : Torus} (h : SamePair x y) : |roundErr P x.toNat - roundErr P y.toNat| ≤ 1 := by
  unfold roundErr
  rw [nearest_pair W hb h]
  unfold SamePair at h
  rw [abs_le]
  constructor <;> omega

/-- The sums of the rounding errors. -/
theorem roundSum_pair (s c c' : List Torus) (h : ∀ i < P.tlweLv0.N, SamePair (at' c i) (at' c' i)) :
    |∑ i ∈ range P.tlweLv0.N, ((at' s i).toNat : ℤ) * roundErr P (at' c' i).toNat|
      ≤ |∑ i ∈ range P.tlweLv0.N, ((at' s i).toNat : ℤ) * roundErr P (at' c i).toNat| + weight P.tlweLv0.N s := by
  have e : ∑ i ∈ range P.tlweLv0.N, ((at' s i).toNat : ℤ) * roundErr P (at' c' i).toNat
      = ∑ i ∈ range P.tlweLv0.N, ((at' s i).toNat : ℤ) * roundErr P (at' c i).toNat
        + ∑ i ∈ range P.tlweLv0.N, ((at' s i).toNat : ℤ) * (roundErr P (at' c' i).toNat - roundErr P (at' c i).toNat) := by
    rw [← sum_add_distrib]
    exact sum_congr rfl fun i _ => by ring
  rw [e]
  refine (abs_add_le _ _).trans (add_le_add le_rfl ?_)
  refine (abs_sum_le_sum_abs _ _).trans ?_
  unfold weight
  push_cast
  refine sum_le_sum fun i hi => ?_
  rw [abs_mul, abs_of_nonneg (by positivity)]
  have := roundErr_pair W hb (h i (mem_range.1 hi))
  rw [abs_sub_comm] at this
  exact mul_le_of_le_one_right (by positivity) this

end

end GoTfhe
