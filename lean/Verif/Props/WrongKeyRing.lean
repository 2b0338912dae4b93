import Verif.Props.WrongKey
import Verif.Props.FloatGates

/-!
# Reading a TRLWE ciphertext with the wrong key (C84)
-/

namespace GoTfhe

open Finset

/-- The coefficient of `a` at `j` in coefficient `k` of the difference of the products of `a` with two keys -/
def wrongCoef (N : ℕ) (s s' : List Torus) (k j : ℕ) : Torus :=
  if j ≤ k then at' s (k - j) - at' s' (k - j) else -(at' s (k + N - j) - at' s' (k + N - j))

theorem negMul_keys (N : ℕ) (s s' : List Torus) (a : Mask N) (k : ℕ) (c : ℕ → Torus) (hc : ∀ i < N, c i = a.draw i) :
    negMul N c (at' s) k - negMul N c (at' s') k = maskHom (fun j => wrongCoef N s s' k j) a := by
  unfold negMul
  rw [← sum_sub_distrib, Finset.sum_range]
  show _ = ∑ i : Fin N, BitVec.ofFin (a i) * wrongCoef N s s' k i
  refine sum_congr rfl fun i _ => ?_
  rw [hc i i.2, Mask.draw, dif_pos i.2, wrongCoef]
  split_ifs <;> ring

theorem wrongCoef_unit (N : ℕ) (s s' : List Torus) (hs : IsBinary s) (hs' : IsBinary s') (hl : s.length = N)
    (hl' : s'.length = N) (hne : s ≠ s') (k : ℕ) (hk : k < N) :
    ∃ j : Fin N, wrongCoef N s s' k j = 1 ∨ wrongCoef N s s' k j = -1 := by
  obtain ⟨⟨i, hi⟩, h⟩ := keys_differ N s s' hs hs' hl hl' hne
  simp only at h
  by_cases hik : i ≤ k
  · refine ⟨⟨k - i, by omega⟩, ?_⟩
    simp only [wrongCoef]
    rw [if_pos (by omega), show k - (k - i) = i by omega]
    exact h
  · refine ⟨⟨k + N - i, by omega⟩, ?_⟩
    simp only [wrongCoef]
    rw [if_neg (by omega), show k + N - (k + N - i) = i by omega]
    rcases h with h | h <;> rw [h]
    · exact Or.inr rfl
    · exact Or.inl (neg_neg 1)

/-- **C84** for TRLWE ciphertexts and every backend that multiplies exactly with binary keys: `EncryptBool` and
`DecryptBool` with another key never panic, and each bit of the result is an exact coin flip over the mask, whatever was
encrypted and with whatever noise. -/
theorem C84_trlwe (P : Params) {O : FourierOps} (L : FourierLaws O) (hd : O.deg = P.trlweLv1.N) (hacc : L.MulAccurate 1 0)
    (key key' : List Torus) (hb : IsBinary key) (hb' : IsBinary key') (hl : key.length = P.trlweLv1.N)
    (hl' : key'.length = P.trlweLv1.N) (hne : key ≠ key') (bits : List Bool) (hbits : bits.length = P.trlweLv1.N)
    (samples : ℕ → ℚ) (i : ℕ) (hi : i < P.trlweLv1.N) (out : Bool) :
    uprob (fun a : Mask P.trlweLv1.N =>
      ∃ r, (trlweEncryptBool P O (newTRLWELv1 P) bits key a.draw samples).bind (fun c => trlweDecryptBool O c key') = some r ∧
        r[i]? = some out) = 1 / 2 := by
  obtain ⟨j, hj⟩ := wrongCoef_unit P.trlweLv1.N key key' hb hb' hl hl' hne i hi
  set pF : List ℚ := bits.map fun b => if b then (0.125 : ℚ) else -0.125 with hpF
  set v := at' (gaussianF64Vec pF samples) i with hv
  rw [← uprob_sign out, ← uprob_add v, ← uprob_hom _ (maskHom_surj (fun j => wrongCoef P.trlweLv1.N key key' i j) j hj)
      fun x => decide (0 ≤ (v + x).toInt) = out]
  apply uprob_congr
  intro a
  have hsmall : ∀ s : List Torus, IsBinary s → ∀ i, nrm (at' s i) ≤ 1 := by
    intro s hs i
    rcases isBinary_at' hs i with h | h <;> rw [h]
    · exact Nat.zero_le _
    · exact le_refl _
  have hmul : ∀ s : List Torus, IsBinary s → s.length = P.trlweLv1.N →
      at' (L.R (L.Mul (L.T (tab P.trlweLv1.N a.draw)) (L.T s))) i = negMul P.trlweLv1.N (at' (tab P.trlweLv1.N a.draw)) (at' s) i := by
    intro s hs hls
    have h := hacc (tab P.trlweLv1.N a.draw) s (by simp [hd]) (by omega) (hsmall s hs) i (by omega)
    rw [hd] at h
    exact sub_eq_zero.1 (BitVec.eq_of_toInt_eq (Int.natAbs_eq_zero.1 (Nat.le_zero.1 h)))
  unfold trlweEncryptBool
  simp only
  rw [trlweEncryptF64_eq P L _ _ key a.draw samples hd (by simp [newTRLWELv1]) (by simpa using hbits) hl]
  rw [Option.bind_some]
  set Rk := L.R (L.Mul (L.T (tab P.trlweLv1.N a.draw)) (L.T key)) with hRk
  set Rk' := L.R (L.Mul (L.T (tab P.trlweLv1.N a.draw)) (L.T key')) with hRk'
  have hlen : Rk'.length = P.trlweLv1.N := by
    rw [hRk', L.length_mulPoly _ _ (by simp [hd]) (by omega), hd]
  have hdec : trlweDecryptBool O ⟨tab P.trlweLv1.N a.draw, tab P.trlweLv1.N fun i => at' (gaussianF64Vec pF samples) i + at' Rk i⟩ key'
      = some (tab P.trlweLv1.N fun i => decide (0 ≤ (at' (gaussianF64Vec pF samples) i + at' Rk i - at' Rk' i).toInt)) := by
    unfold trlweDecryptBool
    simp only [length_tab]
    rw [L.mulPoly_eq _ key' (by simp [hd]) (by omega), ← hRk']
    simp only [Option.bind_eq_bind, Option.bind_some]
    apply forRange_fill_full _ _ _ (by simp)
    intro i hi r _
    rw [rd_tab _ _ _ hi, rd_at' Rk' i (by omega)]
    simp only [Option.bind_some]
  rw [hdec]
  have hx : at' (gaussianF64Vec pF samples) i + at' Rk i - at' Rk' i
      = v + maskHom (fun j => wrongCoef P.trlweLv1.N key key' i j) a := by
    rw [hmul key hb hl, hmul key' hb' hl', ← negMul_keys P.trlweLv1.N key key' a i (at' (tab P.trlweLv1.N a.draw))
      (fun i hi => at'_tab _ _ _ hi)]
    ring
  constructor
  · rintro ⟨r, hr, h⟩
    rw [← Option.some.inj hr, getElem?_tab, if_pos hi, Option.some.injEq, hx] at h
    exact h
  · intro h
    refine ⟨_, rfl, ?_⟩
    rw [getElem?_tab, if_pos hi, Option.some.injEq, hx]
    exact h

/-- **C84** for TRLWE ciphertexts in `float64` arithmetic at every level -/
theorem C84_trlwe_float {fl : ℚ → ℚ} (hfl : IsRound fl) {fu : Fusing} {ce : ℚ → ℚ × ℚ}
    (hce : CexpAccurate ce (1 / 2 ^ 52)) (level : SecurityLevel) {e : PolyEval ℚ}
    (he : newPolyEval (floatArith fl fu mathPi ce) ((paramsFor level).trgswLv1.N : ℤ) = some e)
    (key key' : List Torus) (hb : IsBinary key) (hb' : IsBinary key') (hl : key.length = (paramsFor level).trlweLv1.N)
    (hl' : key'.length = (paramsFor level).trlweLv1.N) (hne : key ≠ key') (bits : List Bool)
    (hbits : bits.length = (paramsFor level).trlweLv1.N) (samples : ℕ → ℚ) (i : ℕ) (hi : i < (paramsFor level).trlweLv1.N)
    (out : Bool) :
    uprob (fun a : Mask (paramsFor level).trlweLv1.N => ∃ r,
      (trlweEncryptBool (paramsFor level) (fftOps (floatArith fl fu mathPi ce) e) (newTRLWELv1 (paramsFor level)) bits key
        a.draw samples).bind (fun c => trlweDecryptBool (fftOps (floatArith fl fu mathPi ce) e) c key') = some r ∧
        r[i]? = some out) = 1 / 2 := by
  obtain ⟨⟨L, -⟩, hd, h⟩ := C67_errors hfl hce level he
  exact C84_trlwe _ L (hd.trans (C63_wellFormed level).trlwe_eq.symm) (h L).2 key key' hb hb' hl hl' hne bits hbits samples i
    hi out

/-- A case: at the default level, a key of ones and one that differs from it in one bit. -/
example (fu : Fusing) (bits : List Bool) (hbits : bits.length = 1024) (samples : ℕ → ℚ) (out : Bool) :
    ∃ (fl : ℚ → ℚ) (ce : ℚ → ℚ × ℚ) (e : PolyEval ℚ), IsRound fl ∧ CexpAccurate ce (1 / 2 ^ 52) ∧
      newPolyEval (floatArith fl fu mathPi ce) 1024 = some e ∧
      uprob (fun a : Mask 1024 => ∃ r,
        (trlweEncryptBool params128Bit (fftOps (floatArith fl fu mathPi ce) e) (newTRLWELv1 params128Bit) bits
          (mkSlice 1024 1) a.draw samples).bind
          (fun c => trlweDecryptBool (fftOps (floatArith fl fu mathPi ce) e) c ((mkSlice 1024 1).set 3 0)) = some r ∧
        r[77]? = some out) = 1 / 2 := by
  obtain ⟨ce, hce⟩ := exists_cexp (1 / 2 ^ 52) (by norm_num)
  have he := (newPolyEval_some (floatArith rne fu mathPi ce) 1024 _).2 ⟨9, by norm_num, by norm_num, rfl⟩
  refine ⟨rne, ce, _, isRound_rne, hce, he, ?_⟩
  have h1 : IsBinary (mkSlice 1024 1) := by
    intro x hx
    exact Or.inr (List.eq_of_mem_replicate hx)
  have h2 : IsBinary ((mkSlice 1024 1).set 3 0) := by
    intro x hx
    rcases List.mem_or_eq_of_mem_set hx with h | h
    · exact h1 x h
    · exact Or.inl h
  have hl : (mkSlice 1024 (1 : Torus)).length = 1024 := List.length_replicate
  have hne : (mkSlice 1024 1 : List Torus) ≠ (mkSlice 1024 1).set 3 0 := by
    intro h
    have h3 : (mkSlice 1024 (1 : Torus))[3]? = some 1 := by rw [mkSlice, List.getElem?_replicate, if_pos (by norm_num)]
    have h4 : ((mkSlice 1024 (1 : Torus)).set 3 0)[3]? = some 0 := by
      rw [List.getElem?_set_self]
      rw [hl]
      norm_num
    rw [← h, h3] at h4
    cases h4
  exact C84_trlwe_float isRound_rne hce 128 he _ _ h1 h2 hl (by rw [List.length_set]; exact hl) hne bits hbits samples 77
    (by decide) out

end GoTfhe
