import Verif.Lemmas.NegHalf

/-!
# All bits of a TRLWE ciphertext read with the wrong key (C84)
-/

namespace GoTfhe

open Finset

/-- **C84** for TRLWE ciphertexts, all bits together: with another key, `DecryptBool` returns each list of N bits with
probability exactly 2^-N over the mask, whatever was encrypted and with whatever noise.  N is a power of two. -/
theorem C84_trlwe_joint (P : Params) {O : FourierOps} (L : FourierLaws O) (hd : O.deg = P.trlweLv1.N)
    (hacc : L.MulAccurate 1 0) (m : ℕ) (hm : 1 ≤ m) (hN : P.trlweLv1.N = 2 ^ m) (key key' : List Torus) (hb : IsBinary key)
    (hb' : IsBinary key') (hl : key.length = P.trlweLv1.N) (hl' : key'.length = P.trlweLv1.N) (hne : key ≠ key')
    (bits : List Bool) (hbits : bits.length = P.trlweLv1.N) (samples : ℕ → ℚ) (out : List Bool)
    (hout : out.length = P.trlweLv1.N) :
    uprob (fun a : Mask P.trlweLv1.N =>
      (trlweEncryptBool P O (newTRLWELv1 P) bits key a.draw samples).bind (fun c => trlweDecryptBool O c key') = some out)
      = 1 / 2 ^ P.trlweLv1.N := by
  set pF : List ℚ := bits.map fun b => if b then (0.125 : ℚ) else -0.125 with hpF
  rw [← uprob_signs (wrongHom P.trlweLv1.N key key')
    (wrongHom_even P.trlweLv1.N m hN hm key key' hb hb' hl hl' hne) (fun i => at' (gaussianF64Vec pF samples) i)
    (fun i => out[(i : ℕ)]'(by rw [hout]; exact i.2))]
  apply uprob_congr
  intro a
  have hsmall : ∀ s : List Torus, IsBinary s → ∀ i, nrm (at' s i) ≤ 1 := by
    intro s hs i
    rcases isBinary_at' hs i with h | h <;> rw [h]
    · exact Nat.zero_le _
    · exact le_refl _
  have hmul : ∀ s : List Torus, IsBinary s → s.length = P.trlweLv1.N → ∀ i < P.trlweLv1.N,
      at' (L.R (L.Mul (L.T (tab P.trlweLv1.N a.draw)) (L.T s))) i = negMul P.trlweLv1.N (at' (tab P.trlweLv1.N a.draw)) (at' s) i := by
    intro s hs hls i hi
    have h := hacc (tab P.trlweLv1.N a.draw) s (by simp [hd]) (by omega) (hsmall s hs) i (by omega)
    rw [hd] at h
    exact sub_eq_zero.1 (BitVec.eq_of_toInt_eq (Int.natAbs_eq_zero.1 (Nat.le_zero.1 h)))
  unfold trlweEncryptBool
  simp only
  rw [trlweEncryptF64_eq P L _ _ key a.draw samples hd (by simp [newTRLWELv1]) (by simpa using hbits) hl]
  rw [Option.bind_some]
  set Rk := L.R (L.Mul (L.T (tab P.trlweLv1.N a.draw)) (L.T key)) with hRk
  set Rk' := L.R (L.Mul (L.T (tab P.trlweLv1.N a.draw)) (L.T key')) with hRk'
  have hlen : Rk'.length = P.trlweLv1.N := by
    rw [hRk', L.length_mulPoly _ _ (by simp [hd]) (by omega), hd]
  have hdec : trlweDecryptBool O ⟨tab P.trlweLv1.N a.draw, tab P.trlweLv1.N fun i => at' (gaussianF64Vec pF samples) i + at' Rk i⟩ key'
      = some (tab P.trlweLv1.N fun i => decide (0 ≤ (at' (gaussianF64Vec pF samples) i + at' Rk i - at' Rk' i).toInt)) := by
    unfold trlweDecryptBool
    simp only [length_tab]
    rw [L.mulPoly_eq _ key' (by simp [hd]) (by omega), ← hRk']
    simp only [Option.bind_eq_bind, Option.bind_some]
    apply forRange_fill_full _ _ _ (by simp)
    intro i hi r _
    rw [rd_tab _ _ _ hi, rd_at' Rk' i (by omega)]
    simp only [Option.bind_some]
  rw [hdec]
  have hx : ∀ i : Fin P.trlweLv1.N, at' (gaussianF64Vec pF samples) i + at' Rk i - at' Rk' i
      = at' (gaussianF64Vec pF samples) i + wrongHom P.trlweLv1.N key key' a i := by
    intro i
    change _ = _ + maskHom (fun j => wrongCoef P.trlweLv1.N key key' i j) a
    rw [hmul key hb hl i i.2, hmul key' hb' hl' i i.2, ← negMul_keys P.trlweLv1.N key key' a i (at' (tab P.trlweLv1.N a.draw))
      (fun i hi => at'_tab _ _ _ hi)]
    ring
  rw [Option.some.injEq]
  constructor
  · intro h k
    subst h
    rw [← hx k]
    simp [getElem_tab]
  · intro h
    refine List.ext_getElem (by simp [hout]) fun i h1 h2 => ?_
    have hi : i < P.trlweLv1.N := by simpa using h1
    rw [← h ⟨i, hi⟩, ← hx ⟨i, hi⟩]
    simp [getElem_tab]

/-- **C84** for TRLWE ciphertexts in `float64` arithmetic at every level, all bits together -/
theorem C84_trlwe_joint_float {fl : ℚ → ℚ} (hfl : IsRound fl) {fu : Fusing} {ce : ℚ → ℚ × ℚ}
    (hce : CexpAccurate ce (1 / 2 ^ 52)) (level : SecurityLevel) {e : PolyEval ℚ}
    (he : newPolyEval (floatArith fl fu mathPi ce) ((paramsFor level).trgswLv1.N : ℤ) = some e)
    (key key' : List Torus) (hb : IsBinary key) (hb' : IsBinary key') (hl : key.length = (paramsFor level).trlweLv1.N)
    (hl' : key'.length = (paramsFor level).trlweLv1.N) (hne : key ≠ key') (bits : List Bool)
    (hbits : bits.length = (paramsFor level).trlweLv1.N) (samples : ℕ → ℚ) (out : List Bool)
    (hout : out.length = (paramsFor level).trlweLv1.N) :
    uprob (fun a : Mask (paramsFor level).trlweLv1.N =>
      (trlweEncryptBool (paramsFor level) (fftOps (floatArith fl fu mathPi ce) e) (newTRLWELv1 (paramsFor level)) bits key
        a.draw samples).bind (fun c => trlweDecryptBool (fftOps (floatArith fl fu mathPi ce) e) c key') = some out)
      = 1 / 2 ^ (paramsFor level).trlweLv1.N := by
  obtain ⟨⟨L, -⟩, hd, h⟩ := C67_errors hfl hce level he
  have hwf := C63_wellFormed level
  have hm : 1 ≤ (paramsFor level).trgswLv1.NBIT := by
    by_contra h0
    have h1 := hwf.pow2
    rw [Nat.lt_one_iff.1 (not_le.1 h0)] at h1
    have := hwf.min_degree
    omega
  exact C84_trlwe_joint _ L (hd.trans hwf.trlwe_eq.symm) (h L).2 _ hm (hwf.trlwe_eq.trans hwf.pow2) key key' hb hb' hl hl' hne bits hbits samples out hout

/-- A case: at the default level, a key of ones and one that differs from it in one bit; a ciphertext of 1024 `true`
decrypts to 1024 `true` with probability 2^-1024. -/
example (fu : Fusing) (samples : ℕ → ℚ) :
    ∃ (fl : ℚ → ℚ) (ce : ℚ → ℚ × ℚ) (e : PolyEval ℚ), IsRound fl ∧ CexpAccurate ce (1 / 2 ^ 52) ∧
      newPolyEval (floatArith fl fu mathPi ce) 1024 = some e ∧
      uprob (fun a : Mask 1024 =>
        (trlweEncryptBool params128Bit (fftOps (floatArith fl fu mathPi ce) e) (newTRLWELv1 params128Bit)
          (List.replicate 1024 true) (mkSlice 1024 1) a.draw samples).bind
          (fun c => trlweDecryptBool (fftOps (floatArith fl fu mathPi ce) e) c ((mkSlice 1024 1).set 3 0))
        = some (List.replicate 1024 true)) = 1 / 2 ^ 1024 := by
  obtain ⟨ce, hce⟩ := exists_cexp (1 / 2 ^ 52) (by norm_num)
  have he := (newPolyEval_some (floatArith rne fu mathPi ce) 1024 _).2 ⟨9, by norm_num, by norm_num, rfl⟩
  refine ⟨rne, ce, _, isRound_rne, hce, he, ?_⟩
  have h1 : IsBinary (mkSlice 1024 1) := by
    intro x hx
    exact Or.inr (List.eq_of_mem_replicate hx)
  have h2 : IsBinary ((mkSlice 1024 1).set 3 0) := by
    intro x hx
    rcases List.mem_or_eq_of_mem_set hx with h | h
    · exact h1 x h
    · exact Or.inl h
  have hl : (mkSlice 1024 (1 : Torus)).length = 1024 := List.length_replicate
  have hne : (mkSlice 1024 1 : List Torus) ≠ (mkSlice 1024 1).set 3 0 := by
    intro h
    have h3 : (mkSlice 1024 (1 : Torus))[3]? = some 1 := by rw [mkSlice, List.getElem?_replicate, if_pos (by norm_num)]
    have h4 : ((mkSlice 1024 (1 : Torus)).set 3 0)[3]? = some 0 := by
      rw [List.getElem?_set_self]
      rw [hl]
      norm_num
    rw [← h, h3] at h4
    cases h4
  exact C84_trlwe_joint_float isRound_rne hce 128 he _ _ h1 h2 hl (by rw [List.length_set]; exact hl) hne _
    List.length_replicate samples _ List.length_replicate

end GoTfhe
