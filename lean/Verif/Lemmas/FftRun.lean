import Verif.Lemmas.Fft

/-! # The transforms and conversions in closed form -/

namespace GoTfhe

variable {R : Type} (A : Arith R)

theorem forDbl_two {σ : Type*} (e fuel : ℕ) (body : ℕ → σ → Option σ) (S : ℕ → σ) (hf : e + 1 ≤ fuel)
    (h : ∀ i, 1 ≤ i → i ≤ e → body (2 ^ i) (S i) = some (S (i + 1))) :
    forDbl (2 ^ e) body fuel 2 (S 1) = some (S (e + 1)) := by
  have := forDbl_eq e body S e 1 fuel (by omega) hf h
  rwa [pow_one] at this

/-- The butterflies of the forward transform on complex numbers -/
abbrev bfF (m q : ℕ) (w u v : R × R) : (R × R) × (R × R) := bf2 (butterfly A m) q w u v

/-- The butterflies of the inverse transform on complex numbers -/
abbrev bfI (m q : ℕ) (w u v : R × R) : (R × R) × (R × R) := bf2 (invButterfly A m) q w u v

theorem fftInPlace_eq (k : ℕ) (hk : 3 ≤ k) (g : ℕ → R × R) (z : ℕ → R × R) :
    fftInPlace A (pack (2 ^ (k + 1)) z) (tab (2 ^ k - 1) g)
      = some (pack (2 ^ (k + 1)) (fftC (bfF A) k g k z)) := by
  obtain ⟨e, rfl⟩ : ∃ e, k = e + 3 := ⟨k - 3, by omega⟩
  have hp : 0 < 2 ^ e := Nat.pow_pos (by omega)
  have hN : 2 ^ (e + 3 + 1) = 8 * (2 * 2 ^ e) := by ring
  have hM : 2 ^ (e + 3) = 8 * 2 ^ e := by ring
  rw [fftInPlace]
  simp only [length_pack, Option.bind_eq_bind]
  rw [rd_tab _ _ _ (by omega), Option.bind_some, hN]
  rw [firstStage_eq _ _ _ _ (2 ^ e) _ rfl hp (by omega), Option.bind_some]
  have e1 : 8 * (2 * 2 ^ e) / 16 = 2 ^ e := by omega
  rw [e1]
  let S : ℕ → ℕ × ℕ × List R := fun s =>
    (2 ^ (e + 4 - s), 2 ^ s - 1, pack (8 * (2 * 2 ^ e)) (fftC (bfF A) (e + 3) g s z))
  have h1 : ((8 * (2 * 2 ^ e) / 2, 1,
      pack (8 * (2 * 2 ^ e)) (stage (bfF A 1) (4 * 2 ^ e) (fun _ => g 0) z)) : ℕ × ℕ × List R) = S 1 := by
    simp only [S]
    congr 1
    · rw [show e + 4 - 1 = e + 3 by omega]; omega
    · congr 1
      apply pack_congr
      intro p hp'
      rw [fftC, fftC, show e + 3 - 1 - 0 = e + 2 by omega, show 2 ^ (e + 2) = 4 * 2 ^ e by ring]
      rw [stage, stage]
      have hp8 : p < 2 * (4 * 2 ^ e) := by omega
      simp [Nat.div_eq_of_lt hp8]
  rw [h1]
  rw [forDbl_two e _ _ S (by have := Nat.lt_two_pow_self (n := e); omega)]
  · simp only [Option.bind_some, S]
    have hm : 2 ^ (e + 1) = 2 * 2 ^ e := by ring
    rw [pairStage2_eq _ _ (fun i => g (2 ^ (e + 1) - 1 + i)) _ _ _
      (fun i hi => rd_tab _ _ _ (by omega)), Option.bind_some]
    have hm2 : 2 ^ (e + 2) = 4 * 2 ^ e := by ring
    rw [pairStage1_eq _ _ (fun i => g (2 ^ (e + 2) - 1 + i)) _ _ _
      (fun i hi => by
        rw [rd_tab _ _ _ (by omega)]
        congr 2
        omega), Option.bind_some]
    simp only [Option.pure_def]
    congr 1
    apply pack_congr
    intro p _
    conv_rhs => rw [fftC, fftC]
    rw [show e + 3 - 1 - (e + 2) = 0 by omega, show e + 3 - 1 - (e + 1) = 1 by omega,
      show 8 * (2 * 2 ^ e) / 4 = 2 ^ (e + 2) by omega, show 8 * (2 * 2 ^ e) / 8 = 2 ^ (e + 1) by omega]
    rfl
  · intro s hs1 hs2
    simp only [S]
    obtain ⟨d, rfl⟩ : ∃ d, e = s + d := ⟨e - s, by omega⟩
    have hd : 0 < 2 ^ d := Nat.pow_pos (by omega)
    have t1 : 2 ^ (s + d + 4 - s) >>> 1 = 8 * 2 ^ d := by
      rw [show s + d + 4 - s = (d + 3) + 1 by omega, two_pow_shiftRight]; ring
    have hsd : 2 ^ (s + d) = 2 ^ d * 2 ^ s := by ring
    have hs0 : 0 < 2 ^ s := Nat.pow_pos (by omega)
    have hle : 2 ^ s ≤ 2 ^ (s + d) := Nat.pow_le_pow_right (by omega) (by omega)
    rw [t1, middleStage_eq _ _ (fun i => g (2 ^ s - 1 + i)) _ _ (2 ^ d) _ _ _ (by rw [hsd]; ring) hd rfl
      (fun i hi => rd_tab _ _ _ (by omega)), Option.bind_some]
    simp only [Option.pure_def]
    congr 2
    · rw [show s + d + 4 - (s + 1) = d + 3 by omega]; ring
    · congr 1
      · rw [pow_succ]; omega
      · apply pack_congr
        intro p _
        conv_rhs => rw [fftC]
        rw [show s + d + 3 - 1 - s = d + 2 by omega, show 2 ^ (d + 2) = 4 * 2 ^ d by ring]

theorem ifftInPlace_eq (k : ℕ) (hk : 3 ≤ k) (g : ℕ → R × R) (z : ℕ → R × R) :
    ifftInPlace A (pack (2 ^ (k + 1)) z) (tab (2 ^ k - 1) g)
      = some (pack (2 ^ (k + 1)) fun x =>
          cdivs A (A.ofInt ((2 ^ k : ℕ) : ℤ)) (ifftC (bfI A) k g k z x)) := by
  obtain ⟨e, rfl⟩ : ∃ e, k = e + 3 := ⟨k - 3, by omega⟩
  have hp : 0 < 2 ^ e := Nat.pow_pos (by omega)
  have hN : 2 ^ (e + 3 + 1) = 8 * (2 * 2 ^ e) := by ring
  have hM : 2 ^ (e + 3) = 8 * 2 ^ e := by ring
  have hM2 : 2 ^ (e + 2) = 4 * 2 ^ e := by ring
  have hM1 : 2 ^ (e + 1) = 2 * 2 ^ e := by ring
  rw [ifftInPlace]
  simp only [length_pack, Option.bind_eq_bind]
  rw [hN]
  rw [pairStage1_eq _ _ (fun i => g (2 ^ (e + 3) - 2 ^ (e + 3 - 0) + i)) _ _ _
    (fun i hi => by
      rw [rd_tab _ _ _ (by omega)]
      congr 2
      rw [Nat.sub_zero]; omega), Option.bind_some]
  rw [pairStage2_eq _ _ (fun i => g (2 ^ (e + 3) - 2 ^ (e + 3 - 1) + i)) _ _ _
    (fun i hi => by
      rw [rd_tab _ _ _ (by omega)]
      congr 2
      rw [show e + 3 - 1 = e + 2 by omega]; omega), Option.bind_some]
  have e1 : 8 * (2 * 2 ^ e) / 16 = 2 ^ e := by omega
  rw [e1]
  let S : ℕ → ℕ × ℕ × List R := fun j =>
    (2 ^ (j + 3), 2 ^ (e + 3) - 2 ^ (e + 1 - j),
      pack (8 * (2 * 2 ^ e)) (ifftC (bfI A) (e + 3) g (j + 2) z))
  have h1 : ((8, 0 + 2 * (2 * 2 ^ e) + 2 * 2 ^ e,
      pack (8 * (2 * 2 ^ e)) (stage (bf2 (invButterfly A (8 * (2 * 2 ^ e) / 8))) 2 (fun i => g (2 ^ (e + 3) - 2 ^ (e + 3 - 1) + i))
        (stage (bf2 (invButterfly A (8 * (2 * 2 ^ e) / 4))) 1 (fun i => g (2 ^ (e + 3) - 2 ^ (e + 3 - 0) + i)) z))) : ℕ × ℕ × List R)
      = S 0 := by
    simp only [S]
    congr 1
    congr 1
    · rw [Nat.sub_zero]; omega
    · rw [show 8 * (2 * 2 ^ e) / 4 = 2 ^ (e + 3 - 1 - 0) by rw [show e + 3 - 1 - 0 = e + 2 by omega]; omega,
        show 8 * (2 * 2 ^ e) / 8 = 2 ^ (e + 3 - 1 - 1) by rw [show e + 3 - 1 - 1 = e + 1 by omega]; omega]
      rfl
  rw [h1]
  rw [forHalf2_eq _ e _ S (by have := Nat.lt_two_pow_self (n := e); omega)]
  · simp only [Option.bind_some, S]
    rw [show e + 1 - e = 1 by omega, rd_tab _ _ _ (by omega), Option.bind_some]
    have := lastStage_eq A (invButterfly A 1) (g (2 ^ (e + 3) - 2 ^ 1))
      (A.ofInt (((8 * (2 * 2 ^ e) / 2 : ℕ)) : ℤ)) (2 * 2 ^ e)
      (ifftC (bfI A) (e + 3) g (e + 2) z) (2 ^ e) (8 * (2 * 2 ^ e) / 2) rfl hp (by omega)
    simp only [Option.bind_eq_bind] at this
    rw [this]
    congr 1
    apply pack_congr
    intro p hp'
    rw [show 8 * (2 * 2 ^ e) / 2 = 2 ^ (e + 3) by omega]
    congr 1
    conv_rhs => rw [ifftC]
    rw [hM2, stage, stage]
    have hp8 : p < 2 * (4 * 2 ^ e) := by omega
    rw [show e + 3 - (e + 2) = 1 by omega, show e + 3 - 1 - (e + 2) = 0 by omega]
    simp [Nat.div_eq_of_lt hp8]
  · intro j hj
    simp only [S]
    obtain ⟨d, rfl⟩ : ∃ d, e = j + d := ⟨e - j, by omega⟩
    have hd : 0 < 2 ^ d := Nat.pow_pos (by omega)
    have hj0 : 0 < 2 ^ j := Nat.pow_pos (by omega)
    have hsd : 2 ^ (j + d) = 2 ^ j * 2 ^ d := by ring
    have hle : 2 ^ d ≤ 2 ^ (j + d) := Nat.pow_le_pow_right (by omega) (by omega)
    rw [show j + d - j = d by omega, show j + d + 1 - j = d + 1 by omega]
    have hd1 : 2 ^ (d + 1) = 2 * 2 ^ d := by ring
    rw [middleStage_eq _ _ (fun i => g (2 ^ (j + d + 3) - 2 ^ (d + 1) + i)) _ _ (2 ^ j) _ _ _ (by rw [hsd]; ring) hj0
      (by ring) (fun i hi => rd_tab _ _ _ (by omega)), Option.bind_some]
    simp only [Option.pure_def]
    congr 2
    · rw [Nat.shiftLeft_eq]; ring
    · congr 1
      · rw [show j + d + 1 - (j + 1) = d by omega]; omega
      · apply pack_congr
        intro p _
        conv_rhs => rw [show j + 1 + 2 = (j + 2) + 1 by omega, ifftC]
        rw [show 2 ^ (j + 2) = 4 * 2 ^ j by ring, show j + d + 3 - (j + 2) = d + 1 by omega,
          show j + d + 3 - 1 - (j + 2) = d by omega]

end GoTfhe
