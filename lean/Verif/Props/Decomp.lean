import Verif.Lemmas.Decomp
import Verif.Props.Params

/-!
# C16, C17: gadget decomposition
-/

namespace GoTfhe

/-- **C16.** For every parameter set with `Bg = 2^BGBIT`, `BGBIT ≥ 1` and `L * BGBIT ≤ 32`, with the offset computed by the
cloud key, every coefficient `x = p[j]` and whatever the buffers held: the digits written by `DecomposePolyAssign` are
signed integers in `[-Bg/2, Bg/2)` and recompose to `x` minus exactly `x mod 2^(32-L*BGBIT)`. -/
theorem C16_decompose_all (P : Params) (hbg : P.trgswLv1.BG = 2 ^ P.trgswLv1.BGBIT) (hb : 1 ≤ P.trgswLv1.BGBIT)
    (hf : P.trgswLv1.L * P.trgswLv1.BGBIT ≤ 32) (p : List Torus) (out : List (List Torus))
    (hL : P.trgswLv1.L ≤ out.length) (hrow : ∀ row ∈ out, row.length = p.length) :
    ∃ offset res, genDecompositionOffset P = some offset ∧
      decomposePolyAssign p P.trgswLv1.BGBIT P.trgswLv1.L offset out = some res ∧ res.length = out.length ∧
      (∀ i < P.trgswLv1.L, (res.getD i []).length = p.length) ∧
      (∀ j < p.length, ∀ i < P.trgswLv1.L,
        -(2 : ℤ) ^ (P.trgswLv1.BGBIT - 1) ≤ (at' (res.getD i []) j).toInt ∧
        (at' (res.getD i []) j).toInt < 2 ^ (P.trgswLv1.BGBIT - 1)) ∧
      (∀ j < p.length,
        ∑ i ∈ Finset.range P.trgswLv1.L,
          at' (res.getD i []) j * BitVec.ofNat 32 (2 ^ (32 - (i + 1) * P.trgswLv1.BGBIT))
        = at' p j - BitVec.ofNat 32 ((at' p j).toNat % 2 ^ (32 - P.trgswLv1.L * P.trgswLv1.BGBIT))) ∧
      res.drop P.trgswLv1.L = out.drop P.trgswLv1.L := by
  refine ⟨_, _, genDecompositionOffset_eq P hbg hb hf, decomposePolyAssign_eq p _ _ _ out hb hL hrow,
    ?_, ?_, ?_, ?_, ?_⟩
  · simp; omega
  all_goals
    have hget : ∀ i < P.trgswLv1.L, (tab P.trgswLv1.L (fun i => tab p.length fun j =>
        digit (at' p j + gadgetOffset P.trgswLv1.BGBIT P.trgswLv1.L) P.trgswLv1.BGBIT i)
          ++ out.drop P.trgswLv1.L).getD i [] = tab p.length fun j =>
        digit (at' p j + gadgetOffset P.trgswLv1.BGBIT P.trgswLv1.L) P.trgswLv1.BGBIT i := by
      intro i hi
      rw [List.getD_eq_getElem?_getD, List.getElem?_append_left (by simpa using hi), getElem?_tab,
        if_pos hi]
      rfl
  · intro i hi
    rw [hget i hi]; simp
  · intro j hj i hi
    have hib : (i + 1) * P.trgswLv1.BGBIT ≤ 32 :=
      (Nat.mul_le_mul_right _ hi).trans hf
    rw [hget i hi, at'_tab _ _ _ hj, digit_toInt _ _ _ hib hb]
    generalize (at' p j + gadgetOffset P.trgswLv1.BGBIT P.trgswLv1.L).toNat /
      2 ^ (32 - (i + 1) * P.trgswLv1.BGBIT) = u
    have h1 : (2 : ℤ) ^ (P.trgswLv1.BGBIT - 1) * 2 = 2 ^ P.trgswLv1.BGBIT := by
      rw [← pow_succ]; congr 1; omega
    have h2 : ((u % 2 ^ P.trgswLv1.BGBIT : ℕ) : ℤ) < 2 ^ P.trgswLv1.BGBIT := by
      exact_mod_cast Nat.mod_lt _ (by positivity)
    generalize u % 2 ^ P.trgswLv1.BGBIT = v at *
    generalize (2 : ℤ) ^ (P.trgswLv1.BGBIT - 1) = h at *
    constructor <;> omega
  · intro j hj
    have := digit_recompose (at' p j) P.trgswLv1.BGBIT P.trgswLv1.L hf hb
    rw [natCast_eq] at this
    rw [← this]
    apply Finset.sum_congr rfl
    intro i hi
    rw [hget i (Finset.mem_range.1 hi), at'_tab _ _ _ hj]
    rfl
  · rw [List.drop_append_of_le_length (by simp), List.drop_of_length_le (by simp)]
    rfl

/-- **C16**, the shipped sets. For every security level (every `int`), with the offset computed by the cloud key, every
coefficient `x = p[j]` and whatever the buffers held: the digits written by `DecomposePolyAssign` are
signed integers in `[-Bg/2, Bg/2)` and recompose to `x` minus exactly `x mod 2^(32-L*BGBIT)`. -/
theorem C16_decompose (level : SecurityLevel) (p : List Torus) (out : List (List Torus))
    (hL : (paramsFor level).trgswLv1.L ≤ out.length) (hrow : ∀ row ∈ out, row.length = p.length) :
    ∃ offset res, genDecompositionOffset (paramsFor level) = some offset ∧
      decomposePolyAssign p (paramsFor level).trgswLv1.BGBIT (paramsFor level).trgswLv1.L offset out
        = some res ∧ res.length = out.length ∧
      (∀ i < (paramsFor level).trgswLv1.L, (res.getD i []).length = p.length) ∧
      (∀ j < p.length, ∀ i < (paramsFor level).trgswLv1.L,
        -(2 : ℤ) ^ ((paramsFor level).trgswLv1.BGBIT - 1) ≤ (at' (res.getD i []) j).toInt ∧
        (at' (res.getD i []) j).toInt < 2 ^ ((paramsFor level).trgswLv1.BGBIT - 1)) ∧
      (∀ j < p.length,
        ∑ i ∈ Finset.range (paramsFor level).trgswLv1.L,
          at' (res.getD i []) j * BitVec.ofNat 32 (2 ^ (32 - (i + 1) * (paramsFor level).trgswLv1.BGBIT))
        = at' p j - BitVec.ofNat 32 ((at' p j).toNat %
            2 ^ (32 - (paramsFor level).trgswLv1.L * (paramsFor level).trgswLv1.BGBIT))) ∧
      res.drop (paramsFor level).trgswLv1.L = out.drop (paramsFor level).trgswLv1.L := by
  have W := C63_wellFormed level
  exact C16_decompose_all _ W.bg W.bgbit_pos W.gadget_fits p out hL hrow

/-- **C16**: the recomposition error: with `L ≥ 1` digits the recomposed word is below the coefficient by less than one unit of
the last digit, `2^(32-L*BGBIT)`. -/
theorem C16_error (P : Params) (hbg : P.trgswLv1.BG = 2 ^ P.trgswLv1.BGBIT) (hb : 1 ≤ P.trgswLv1.BGBIT)
    (hL1 : 1 ≤ P.trgswLv1.L)
    (hf : P.trgswLv1.L * P.trgswLv1.BGBIT ≤ 32) (p : List Torus) (out : List (List Torus))
    (hL : P.trgswLv1.L ≤ out.length) (hrow : ∀ row ∈ out, row.length = p.length) :
    ∃ offset res, genDecompositionOffset P = some offset ∧
      decomposePolyAssign p P.trgswLv1.BGBIT P.trgswLv1.L offset out = some res ∧
      ∀ j < p.length, (at' p j - ∑ i ∈ Finset.range P.trgswLv1.L,
          at' (res.getD i []) j * BitVec.ofNat 32 (2 ^ (32 - (i + 1) * P.trgswLv1.BGBIT))).toNat
        < 2 ^ (32 - P.trgswLv1.L * P.trgswLv1.BGBIT) := by
  obtain ⟨offset, res, h1, h2, _, _, _, h6, _⟩ := C16_decompose_all P hbg hb hf p out hL hrow
  refine ⟨offset, res, h1, h2, fun j hj => ?_⟩
  have hpos : 1 ≤ P.trgswLv1.L * P.trgswLv1.BGBIT := Nat.mul_pos hL1 hb
  have hlt : (2 : ℕ) ^ (32 - P.trgswLv1.L * P.trgswLv1.BGBIT) < 2 ^ 32 :=
    Nat.pow_lt_pow_right (by norm_num) (by omega)
  have hm := Nat.mod_lt (at' p j).toNat
    (show 0 < 2 ^ (32 - P.trgswLv1.L * P.trgswLv1.BGBIT) by positivity)
  rw [h6 j hj, sub_sub_cancel, BitVec.toNat_ofNat, Nat.mod_eq_of_lt (hm.trans hlt)]
  exact hm

example : (digit (0x80000001#32 + gadgetOffset 6 3) 6 0).toInt = -32 ∧
    (digit (0x7c000000#32 + gadgetOffset 6 3) 6 0).toInt = 31 := by
  decide

example : (paramsFor 128).trgswLv1.L ≤ (tab 6 fun _ => tab 1024 fun _ => (3 : Torus)).length := by
  simp; decide

/-- **C17.** Both decompositions write the same digits, for every TRLWE `(A, B)` and any previous
contents of either family of buffers. -/
theorem C17_same_digits (l n bgbit : ℕ) (hb : 1 ≤ bgbit) (A B : List Torus) (offset : Torus)
    (hA : A.length = n) (hB : B.length = n)
    (bufs outA outB : List (List Torus)) (hbufs : l * 2 ≤ bufs.length) (hoA : outA.length = l)
    (hoB : outB.length = l) (rb : ∀ row ∈ bufs, row.length = n)
    (rA : ∀ row ∈ outA, row.length = n) (rB : ∀ row ∈ outB, row.length = n) :
    ∃ dA dB, decomposePolyAssign A bgbit l offset outA = some dA ∧
      decomposePolyAssign B bgbit l offset outB = some dB ∧
      decompositionCoeffs l n bgbit A B offset bufs = some (dA ++ dB ++ bufs.drop (l * 2)) ∧
      dA.length = l ∧ dB.length = l := by
  refine ⟨_, _, decomposePolyAssign_eq A bgbit l offset outA hb (by omega) (by rw [hA]; exact rA),
    decomposePolyAssign_eq B bgbit l offset outB hb (by omega) (by rw [hB]; exact rB), ?_, ?_, ?_⟩
  · rw [decompositionCoeffs_eq l n bgbit A B offset bufs hbufs (by omega) (by omega) rb]
    rw [List.drop_of_length_le (l := outA) (by omega), List.drop_of_length_le (l := outB) (by omega),
      List.append_nil, List.append_nil, hA, hB]
  · simp; omega
  · simp; omega

/-- The eight decomposition buffers of a polynomial evaluator suffice at every security level. -/
theorem C17_buffers_suffice (level : SecurityLevel) : (paramsFor level).trgswLv1.L * 2 ≤ 8 := by
  have := (C63_wellFormed level).decomp_buffers
  omega

end GoTfhe
