import Verif.Lemmas.LostBias

/-!
# The first step of a blind rotation that does anything

The masks of a test vector are zero, and `^0 - 0 = -1`. As long as all digits are zero the accumulator does not change.
-/

namespace GoTfhe

open Finset

variable {O : FourierOps}

/-! ### Digits -/

theorem small_of_digits (x : Torus) (h : ∀ j < 3, digit (x + gadgetOffset 6 3) 6 j = 0) : x.toNat < 16384 := by
  have h1 := digit_recompose x 6 3 (by norm_num) (by norm_num)
  rw [sum_eq_zero fun j hj => by rw [h j (mem_range.1 hj), zero_mul]] at h1
  have h2 : x = ((x.toNat % 2 ^ (32 - 3 * 6) : ℕ) : Torus) := (sub_eq_zero.1 h1.symm)
  have h3 : x.toNat = x.toNat % 16384 := by
    conv_lhs => rw [h2]
    rw [natCast_eq, BitVec.toNat_ofNat]
    norm_num
    omega
  omega

theorem digits_zero : ∀ j < 3, digit (0 + gadgetOffset 6 3) 6 j = 0 := by decide +kernel
theorem digits_one : ∀ j < 3, digit (1 + gadgetOffset 6 3) 6 j = 0 := by decide +kernel
theorem digits_small01 (x : Torus) (hx : x = 0 ∨ x = 1) (j : ℕ) (hj : j < 3) : digit (x + gadgetOffset 6 3) 6 j = 0 := by
  rcases hx with h | h <;> rw [h]
  · exact digits_zero j hj
  · exact digits_one j hj

theorem nrm_of_digits (x : Torus) (h : ∀ j < 3, digit (x + gadgetOffset 6 3) 6 j = 0) : nrm x ≤ 16384 := by
  have h1 := small_of_digits x h
  unfold nrm
  rw [BitVec.toInt_eq_toNat_cond]
  split_ifs <;> omega

theorem not_dvd_digit (y : Torus) (j : ℕ) (hj : j < 3) (h : digit y 6 j ≠ 0) : ¬ 64 ∣ (digit y 6 j).toNat := by
  have h1 := nrm_digit y 6 j (by omega) (by norm_num)
  intro h2
  apply h
  have h3 := (digit y 6 j).isLt
  unfold nrm at h1
  rw [BitVec.toInt_eq_toNat_cond] at h1
  apply BitVec.eq_of_toNat_eq
  rw [show (0 : Torus).toNat = 0 from rfl]
  split_ifs at h1 <;> omega

/-! ### The input of a step that meets the initial accumulator -/

/-- The input of step `i` if the accumulator is the initial one. -/
def in0 (P : Params) (tv : Trlwe) (c : List Torus) (i : ℕ) : Trlwe :=
  Trlwe.sub P.trgswLv1.N (rot P.trgswLv1.N (aTilda P.trgswLv1.NBIT (at' c i))
    (rot P.trgswLv1.N (bTilda P.trgswLv1.N P.trgswLv1.NBIT (at' c P.tlweLv0.N)) tv))
    (rot P.trgswLv1.N (bTilda P.trgswLv1.N P.trgswLv1.NBIT (at' c P.tlweLv0.N)) tv)

/-- Some digit of it is not zero. -/
def Moves (P : Params) (tv : Trlwe) (c : List Torus) (i : ℕ) : Prop :=
  ∃ j < P.trgswLv1.L * 2, ∃ k < P.trgswLv1.N,
    at' (digitPoly P (gadgetOffset P.trgswLv1.BGBIT P.trgswLv1.L) (in0 P tv c i) j) k ≠ 0

theorem exists_move (P : Params) (tv : Trlwe) (c : List Torus) : ∃ i, P.tlweLv0.N ≤ i ∨ Moves P tv c i := ⟨_, Or.inl le_rfl⟩

open Classical in
/-- The first step that changes the accumulator. -/
noncomputable def firstMove (P : Params) (tv : Trlwe) (c : List Torus) : ℕ := Nat.find (exists_move P tv c)

theorem firstMove_le (P : Params) (tv : Trlwe) (c : List Torus) : firstMove P tv c ≤ P.tlweLv0.N := by
  classical
  exact Nat.find_min' _ (Or.inl le_rfl)

theorem not_moves {P : Params} {tv : Trlwe} {c : List Torus} {i : ℕ} (h : i < firstMove P tv c) : ¬ Moves P tv c i := by
  classical
  exact fun h' => Nat.find_min (exists_move P tv c) h (Or.inr h')

theorem firstMove_moves {P : Params} {tv : Trlwe} {c : List Torus} (h : firstMove P tv c < P.tlweLv0.N) :
    Moves P tv c (firstMove P tv c) := by
  classical
  rcases Nat.find_spec (exists_move P tv c) with h' | h'
  · exact absurd h (not_lt.2 h')
  · exact h'

/-- Coefficients of the input. -/
theorem in0_at (P : Params) (hN : 0 < P.trgswLv1.N) (tv : Trlwe) (c : List Torus) (i k : ℕ) (hk : k < P.trgswLv1.N) :
    at' (in0 P tv c i).A k
      = extG compl P.trgswLv1.N (at' tv.A) ((k : ℤ) - aTilda P.trgswLv1.NBIT (at' c i)
          - bTilda P.trgswLv1.N P.trgswLv1.NBIT (at' c P.tlweLv0.N))
        - extG compl P.trgswLv1.N (at' tv.A) ((k : ℤ) - bTilda P.trgswLv1.N P.trgswLv1.NBIT (at' c P.tlweLv0.N)) ∧
    at' (in0 P tv c i).B k
      = extG compl P.trgswLv1.N (at' tv.B) ((k : ℤ) - aTilda P.trgswLv1.NBIT (at' c i)
          - bTilda P.trgswLv1.N P.trgswLv1.NBIT (at' c P.tlweLv0.N))
        - extG compl P.trgswLv1.N (at' tv.B) ((k : ℤ) - bTilda P.trgswLv1.N P.trgswLv1.NBIT (at' c P.tlweLv0.N)) := by
  have key : ∀ (f : ℕ → Torus) (a b : ℤ), extG compl P.trgswLv1.N
      (at' (tab P.trgswLv1.N fun i : ℕ => extG compl P.trgswLv1.N f ((i : ℤ) - b))) ((k : ℤ) - a)
      = extG compl P.trgswLv1.N f ((k : ℤ) - a - b) := by
    intro f a b
    rw [← extG_shift compl compl_compl _ hN f ((k : ℤ) - a) b]
    exact extG_congr compl _ hN _ _ (fun j hj => at'_tab _ _ _ hj) _
  unfold in0 Trlwe.sub rot
  simp only
  rw [at'_tab _ _ _ hk, at'_tab _ _ _ hk, at'_tab _ _ _ hk, at'_tab _ _ _ hk, at'_tab _ _ _ hk, at'_tab _ _ _ hk,
    key, key]
  exact ⟨rfl, rfl⟩

section

variable (P : Params) (L : FourierLaws O) (k0 k1 : List Torus) (R : KeyGenRand) (tv : Trlwe) (c : List Torus)

theorem inM_in0 (ω : KeyMasks P) (i : ℕ) (h : accM P L k0 k1 R tv c ω i = accM P L k0 k1 R tv c ω 0) :
    inM P L k0 k1 R tv c ω i = in0 P tv c i := by
  unfold accM at h
  unfold inM stepIn
  rw [h]
  rfl

/-- Before the first move nothing happens. -/
theorem accM_firstMove (hd : O.deg = P.trgswLv1.N) (hacc : L.Accurate (P.trgswLv1.L * 2) 0 0) (ω : KeyMasks P) (i : ℕ)
    (hi : i ≤ firstMove P tv c) : accM P L k0 k1 R tv c ω i = accM P L k0 k1 R tv c ω 0 := by
  induction i with
  | zero => rfl
  | succ i ih =>
    have ih := ih (by omega)
    have hle := firstMove_le P tv c
    rw [← ih]
    refine accM_still P L k0 k1 R tv c hd hacc ω i (by omega) fun j hj k hk => ?_
    rw [inM_in0 P L k0 k1 R tv c ω i ih]
    by_contra h
    exact not_moves (show i < firstMove P tv c by omega) ⟨j, hj, k, hk, h⟩

/-- A step without a rotation does not move. -/
theorem moves_rotates (W : WellFormed P) (hL : P.trgswLv1.L = 3) (hb : P.trgswLv1.BGBIT = 6) {i : ℕ} (h : Moves P tv c i) :
    aTilda P.trgswLv1.NBIT (at' c i) ≠ 0 := by
  have hN : 0 < P.trgswLv1.N := by have := W.min_degree; omega
  intro h0
  obtain ⟨j, hj, k, hk, h⟩ := h
  obtain ⟨e1, e2⟩ := in0_at P hN tv c i k hk
  rw [h0, sub_zero, sub_self] at e1 e2
  apply h
  by_cases hj' : j < P.trgswLv1.L
  · rw [digitPoly_lo P _ _ j k hj' hk, e1, hL, hb]
    exact digits_small01 0 (Or.inl rfl) j (by omega)
  · obtain ⟨j', rfl⟩ : ∃ j', j = j' + P.trgswLv1.L := ⟨j - P.trgswLv1.L, by omega⟩
    rw [digitPoly_hi P _ _ j' k hk, e2, hL, hb]
    exact digits_small01 0 (Or.inl rfl) j' (by omega)

/-- The first move has a good digit. -/
theorem good_firstMove (W : WellFormed P) (hd : O.deg = P.trgswLv1.N) (hacc : L.Accurate (P.trgswLv1.L * 2) 0 0)
    (hL : P.trgswLv1.L = 3) (hb : P.trgswLv1.BGBIT = 6)
    (ω : KeyMasks P) (i : ℕ) (hi : firstMove P tv c ≤ i) (hz : nzM P c i)
    (hq : ∀ q, firstMove P tv c ≤ q → q < i → ¬ nzM P c q) : GoodM P L k0 k1 R tv c 64 ω i := by
  have hlt : firstMove P tv c < P.tlweLv0.N := lt_of_le_of_lt hi hz.1
  have hm := firstMove_moves hlt
  obtain rfl : i = firstMove P tv c := by
    by_contra hne
    exact hq _ le_rfl (by omega) ⟨hlt, moves_rotates P tv c W hL hb hm⟩
  obtain ⟨j, hj, k, hk, h⟩ := hm
  refine ⟨j, hj, k, hk, ?_⟩
  unfold digM
  rw [inM_in0 P L k0 k1 R tv c ω _ (accM_firstMove P L k0 k1 R tv c hd hacc ω _ le_rfl)]
  by_cases hj' : j < P.trgswLv1.L
  · rw [digitPoly_lo P _ _ j k hj' hk, hL, hb] at h ⊢
    exact not_dvd_digit _ j (by omega) h
  · obtain ⟨j', rfl⟩ : ∃ j', j = j' + P.trgswLv1.L := ⟨j - P.trgswLv1.L, by omega⟩
    rw [digitPoly_hi P _ _ j' k hk, hL, hb] at h ⊢
    exact not_dvd_digit _ j' (by omega) h


end

end GoTfhe
