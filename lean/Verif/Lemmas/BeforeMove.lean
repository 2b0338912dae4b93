import Verif.Lemmas.FirstMove

/-!
# The rotations before the first step that moves
-/

namespace GoTfhe

open Finset

section

variable (P : Params) (tv : Trlwe) (c : List Torus)

theorem at'_zero (n i : ℕ) : at' (mkSlice n 0) i = 0 := by
  unfold at' mkSlice
  rw [List.getD_eq_getElem?_getD, List.getElem?_replicate]
  split_ifs <;> rfl

/-- The extension of the zero polynomial, with `^0 - 0` at each wrap. -/
theorem extG_zero (N : ℕ) (f : ℕ → Torus) (hf : ∀ k, f k = 0) (z : ℤ) :
    extG compl N f z = if (z / N) % 2 = 0 then 0 else -1 := by
  unfold extG
  rw [hf]
  rfl

/-- The lost bits before the first move. -/
theorem low_before (W : WellFormed P) (hL : P.trgswLv1.L = 3) (hb : P.trgswLv1.BGBIT = 6) (hA : ∀ k, at' tv.A k = 0)
    (i : ℕ) (hi : i < firstMove P tv c) (k : ℕ) (hk : k < P.trgswLv1.N) : low (at' (in0 P tv c i).A k) ≤ 1 := by
  have hN : 0 < P.trgswLv1.N := by have := W.min_degree; omega
  have h1 : (at' (in0 P tv c i).A k).toNat < 16384 := by
    refine small_of_digits _ fun j hj => ?_
    by_contra h
    refine not_moves hi ⟨j, by omega, k, hk, ?_⟩
    rw [digitPoly_lo P _ _ j k (by omega) hk, hL, hb]
    exact h
  rw [(in0_at P hN tv c i k hk).1, extG_zero _ _ hA, extG_zero _ _ hA] at h1 ⊢
  split_ifs at h1 ⊢ <;> first | (exfalso; revert h1; decide +kernel) | decide +kernel

/-- If no digit of a rotation by `a` is nonzero, every coefficient is close to its own negation. -/
theorem close_of_still (n N : ℕ) (hN : N = 2 ^ n) (f : ℕ → Torus) (a : ℤ) (ha : 0 < a) (ha2 : a < 2 * N) (D : ℕ) (b : ℤ)
    (h : ∀ k < N, nrm (extG compl N f ((k : ℤ) - a - b) - extG compl N f ((k : ℤ) - b)) ≤ D) (k : ℕ) (hk : k < N) :
    nrm (2 * f k + 1) ≤ N * D := by
  have hN0 : 0 < N := by rw [hN]; positivity
  set F := extG compl N f with hF
  have hall : ∀ z : ℤ, nrm (F (z - a) - F z) ≤ D := by
    intro z
    have e1 := Int.emod_nonneg (z + b) (show (N : ℤ) ≠ 0 by omega)
    have e2 := Int.emod_lt_of_pos (z + b) (show (0 : ℤ) < N by omega)
    have e3 := Int.emod_add_mul_ediv (z + b) N
    have h1 := h ((z + b) % N).toNat (by omega)
    rw [Int.toNat_of_nonneg e1] at h1
    have h2 : z = ((z + b) % N - b) + N * ((z + b) / N) := by linarith
    have h3 : z - a = ((z + b) % N - a - b) + N * ((z + b) / N) := by linarith
    rw [h3]
    conv_lhs => rw [show F z = F (((z + b) % N - b) + N * ((z + b) / N)) by rw [← h2]]
    rw [hF, extG_add_mul compl compl_compl _ hN0, extG_add_mul compl compl_compl _ hN0, ← hF]
    split_ifs
    · exact h1
    · rw [compl_eq, compl_eq]
      rw [show ∀ x y : Torus, -x - 1 - (-y - 1) = -(x - y) from fun x y => by ring, nrm_neg]
      exact h1
  have hiter : ∀ (m : ℕ) (z : ℤ), nrm (F (z - m * a) - F z) ≤ m * D := by
    intro m
    induction m with
    | zero => intro z; simp [nrm]
    | succ m ih =>
      intro z
      have := ih (z - a)
      rw [show z - ((m + 1 : ℕ) : ℤ) * a = z - a - m * a by push_cast; ring,
        show F (z - a - m * a) - F z = (F (z - a - m * a) - F (z - a)) + (F (z - a) - F z) by ring]
      refine (nrm_add _ _).trans ((Nat.add_le_add this (hall z)).trans (le_of_eq (by ring)))
  obtain ⟨a', rfl⟩ : ∃ a' : ℕ, a = a' := ⟨a.toNat, by omega⟩
  obtain ⟨v, m, ⟨q, hm⟩, hv⟩ := Nat.exists_eq_two_pow_mul_odd (show a' ≠ 0 by omega)
  have hvn : v ≤ n := by
    by_contra hvn
    have h1 : 2 ^ (n + 1) ≤ 2 ^ v := Nat.pow_le_pow_right (by norm_num) (by omega)
    have h2 : 2 ^ v * 1 ≤ 2 ^ v * m := Nat.mul_le_mul_left _ (by omega)
    rw [pow_succ, ← hN] at h1
    omega
  have h1 := hiter (2 ^ (n - v)) k
  have e : ((2 ^ (n - v) : ℕ) : ℤ) * (a' : ℤ) = N * (2 * q + 1) := by
    have : 2 ^ (n - v) * a' = N * (2 * q + 1) := by
      rw [hv, hm, ← mul_assoc, ← pow_add, hN]
      congr 2
      omega
    exact_mod_cast this
  rw [e, show (k : ℤ) - N * (2 * (q : ℤ) + 1) = k + N * (-(2 * q + 1)) by ring, hF, extG_add_mul compl compl_compl _ hN0,
    if_neg (by omega), extG_of_lt compl N f k hk, compl_eq, show -f k - 1 - f k = -(2 * f k + 1) by ring, nrm_neg] at h1
  refine h1.trans (Nat.mul_le_mul_right _ ?_)
  rw [hN]
  exact Nat.pow_le_pow_right (by norm_num) (by omega)

/-- If the test vector has a large coefficient, the first rotation moves. -/
theorem moves_of_big (W : WellFormed P) (hL : P.trgswLv1.L = 3) (hb : P.trgswLv1.BGBIT = 6)
    (hB : ∃ k < P.trgswLv1.N, P.trgswLv1.N * 16384 < nrm (2 * at' tv.B k + 1)) (i : ℕ) (hz : nzM P c i) : Moves P tv c i := by
  have hN : 0 < P.trgswLv1.N := by have := W.min_degree; omega
  obtain ⟨ha, ha2⟩ := nzM_range P c W hz
  by_contra hm
  obtain ⟨k, hk, h⟩ := hB
  refine absurd (close_of_still P.trgswLv1.NBIT P.trgswLv1.N W.pow2 (at' tv.B) _ ha ha2 16384
    (bTilda P.trgswLv1.N P.trgswLv1.NBIT (at' c P.tlweLv0.N)) (fun m hm' => ?_) k hk) (not_le.2 h)
  rw [← (in0_at P hN tv c i m hm').2]
  refine nrm_of_digits _ fun j hj => ?_
  by_contra hne
  refine hm ⟨j + P.trgswLv1.L, by omega, m, hm', ?_⟩
  rw [digitPoly_hi P _ _ j m hm', hL, hb]
  exact hne

theorem exists_minus (N : ℕ) (hN : 0 < N) (a b : ℤ) (ha : 0 < a) (ha2 : a < 2 * N)
    (h : (b % (2 * N) < N ∧ a < 2 * N - b % (2 * N)) ∨ (N < b % (2 * N) ∧ 2 * N - b % (2 * N) < a)) :
    ∃ k < N, ((k - b : ℤ) / N) % 2 = 0 ∧ ((k - a - b : ℤ) / N) % 2 = 1 := by
  have hN' : (0 : ℤ) < N := by omega
  have h0 := Int.emod_nonneg b (show (2 * N : ℤ) ≠ 0 by omega)
  have h1 := Int.emod_lt_of_pos b (show (0 : ℤ) < 2 * N by omega)
  have h2 := Int.emod_add_mul_ediv b (2 * N)
  set β := b % (2 * N)
  set m := b / (2 * N)
  have red : ∀ z : ℤ, ((z - b) / N) % 2 = ((z - β) / N) % 2 := by
    intro z
    rw [show z - b = (z - β) + N * (-(2 * m)) by linarith, Int.add_mul_ediv_left _ _ (by omega)]
    omega
  simp only [red]
  rcases h with ⟨h3, h4⟩ | ⟨h3, h4⟩
  · refine ⟨(β + max 0 (a - N)).toNat, by omega, ?_⟩
    rw [Int.toNat_of_nonneg (by omega)]
    constructor
    · rw [Int.ediv_eq_zero_of_lt (by omega) (by omega)]; rfl
    · rw [show (β + max 0 (a - N) - a - β) / (N : ℤ) = -1 from ?_]
      · rfl
      · rw [Int.ediv_eq_iff_of_pos hN']
        constructor <;> omega
  · refine ⟨(β + max (-β) (a - 3 * N)).toNat, by omega, ?_⟩
    rw [Int.toNat_of_nonneg (by omega)]
    constructor
    · rw [show (β + max (-β) (a - 3 * N) - β) / (N : ℤ) = -2 from ?_]
      · rfl
      · rw [Int.ediv_eq_iff_of_pos hN']
        constructor <;> omega
    · rw [show (β + max (-β) (a - 3 * N) - a - β) / (N : ℤ) = -3 from ?_]
      · rfl
      · rw [Int.ediv_eq_iff_of_pos hN']
        constructor <;> omega

/-- The test vectors of the gates and of look-up tables: the mask is zero; the body is zero, or has a large coefficient. -/
def TvOk (P : Params) (tv : Trlwe) : Prop :=
  (∀ k, at' tv.A k = 0) ∧
    ((∃ k < P.trgswLv1.N, P.trgswLv1.N * 16384 < nrm (2 * at' tv.B k + 1)) ∨ ∀ k, at' tv.B k = 0)

/-- The rotations before the first move all lie in the same half of the circle. -/
theorem before_move (W : WellFormed P) (hL : P.trgswLv1.L = 3) (hb : P.trgswLv1.BGBIT = 6) (hok : TvOk P tv)
    (h : firstMove P tv c < P.tlweLv0.N) :
    (∀ i < firstMove P tv c, aTilda P.trgswLv1.NBIT (at' c i) = 0 ∨ P.trgswLv1.N < aTilda P.trgswLv1.NBIT (at' c i)) ∨
    (∀ i < firstMove P tv c, aTilda P.trgswLv1.NBIT (at' c i) < P.trgswLv1.N) := by
  have hN : 0 < P.trgswLv1.N := by have := W.min_degree; omega
  obtain ⟨hA, hB | hB⟩ := hok
  · left
    intro i hi
    left
    by_contra h0
    exact not_moves hi (moves_of_big P tv c W hL hb hB i ⟨by omega, h0⟩)
  · set b := bTilda P.trgswLv1.N P.trgswLv1.NBIT (at' c P.tlweLv0.N) with hbd
    have hmv : ∀ i < firstMove P tv c, aTilda P.trgswLv1.NBIT (at' c i) ≠ 0 →
        ¬ ((b % (2 * P.trgswLv1.N) < P.trgswLv1.N ∧ aTilda P.trgswLv1.NBIT (at' c i) < 2 * P.trgswLv1.N - b % (2 * P.trgswLv1.N)) ∨
          (P.trgswLv1.N < b % (2 * P.trgswLv1.N) ∧ 2 * P.trgswLv1.N - b % (2 * P.trgswLv1.N) < aTilda P.trgswLv1.NBIT (at' c i))) := by
      intro i hi h0 hh
      obtain ⟨ha, ha2⟩ := nzM_range P c W ⟨by omega, h0⟩
      obtain ⟨k, hk, e1, e2⟩ := exists_minus P.trgswLv1.N hN _ b ha ha2 hh
      have e3 := (in0_at P hN tv c i k hk).1
      rw [← hbd, extG_zero _ _ hA, extG_zero _ _ hA, if_pos e1, if_neg (by omega), sub_zero] at e3
      refine not_moves hi ⟨2, by omega, k, hk, ?_⟩
      rw [digitPoly_lo P _ _ 2 k (by omega) hk, e3, hL, hb]
      decide +kernel
    have h0 := Int.emod_nonneg b (show (2 * P.trgswLv1.N : ℤ) ≠ 0 by omega)
    rcases lt_trichotomy (b % (2 * P.trgswLv1.N)) (P.trgswLv1.N : ℤ) with hb1 | hb1 | hb1
    · left
      intro i hi
      by_contra hh
      push Not at hh
      have := hmv i hi hh.1
      omega
    · exfalso
      -- the accumulator is `-1` everywhere
      obtain ⟨j, hj, k, hk, hne⟩ := firstMove_moves h
      obtain ⟨e1, e2⟩ := in0_at P hN tv c (firstMove P tv c) k hk
      have hodd : (((k : ℤ) - b) / (P.trgswLv1.N : ℤ)) % 2 = 1 := by
        have h2 := Int.emod_add_mul_ediv b (2 * P.trgswLv1.N)
        rw [hb1] at h2
        rw [show (k : ℤ) - b = (k - P.trgswLv1.N) + P.trgswLv1.N * (-(2 * (b / (2 * P.trgswLv1.N)))) by linarith,
          Int.add_mul_ediv_left _ _ (by omega),
          show ((k : ℤ) - P.trgswLv1.N) / (P.trgswLv1.N : ℤ) = -1 by
            rw [Int.ediv_eq_iff_of_pos (by omega)]; constructor <;> omega]
        omega
      have h01 : ∀ f : ℕ → Torus, (∀ k, f k = 0) → ∀ z : ℤ, extG compl P.trgswLv1.N f z
          - extG compl P.trgswLv1.N f ((k : ℤ) - b) = 0 ∨ extG compl P.trgswLv1.N f z
          - extG compl P.trgswLv1.N f ((k : ℤ) - b) = 1 := by
        intro f hf z
        rw [extG_zero _ _ hf z, extG_zero _ _ hf ((k : ℤ) - b),
          if_neg (show ¬ (((k : ℤ) - b) / (P.trgswLv1.N : ℤ)) % 2 = 0 by omega)]
        split_ifs
        · right; decide
        · left; decide
      apply hne
      by_cases hj' : j < P.trgswLv1.L
      · rw [digitPoly_lo P _ _ j k hj' hk, hL, hb]
        exact digits_small01 _ (e1 ▸ h01 _ hA _) j (by omega)
      · obtain ⟨j', rfl⟩ : ∃ j', j = j' + P.trgswLv1.L := ⟨j - P.trgswLv1.L, by omega⟩
        rw [digitPoly_hi P _ _ j' k hk, hL, hb]
        exact digits_small01 _ (e2 ▸ h01 _ hB _) j' (by omega)
    · right
      intro i hi
      by_contra hh
      have := hmv i hi (by omega)
      omega

end

end GoTfhe
