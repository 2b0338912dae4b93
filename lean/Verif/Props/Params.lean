import Verif.Model.Key
import Verif.Lemmas.Torus
import Mathlib.Tactic.IntervalCases

/-!
# C63-C65: parameters and secret keys
-/

namespace GoTfhe

/-- What the rest of the library needs from a parameter set. -/
structure WellFormed (P : Params) : Prop where
  lv0_pos : 0 < P.tlweLv0.N
  lv1_eq : P.tlweLv1.N = P.trgswLv1.N
  trlwe_eq : P.trlweLv1.N = P.trgswLv1.N
  pow2 : P.trgswLv1.N = 2 ^ P.trgswLv1.NBIT
  min_degree : 16 ≤ P.trgswLv1.N
  nbit_le : P.trgswLv1.NBIT ≤ 30
  bg : P.trgswLv1.BG = 2 ^ P.trgswLv1.BGBIT
  bgbit_pos : 1 ≤ P.trgswLv1.BGBIT
  l_pos : 1 ≤ P.trgswLv1.L
  gadget_fits : P.trgswLv1.L * P.trgswLv1.BGBIT ≤ 32
  decomp_buffers : 2 * P.trgswLv1.L ≤ 8
  basebit_pos : 1 ≤ P.trgswLv1.BASEBIT
  iks_pos : 1 ≤ P.trgswLv1.IKS_T
  ks_fits : P.trgswLv1.BASEBIT * P.trgswLv1.IKS_T ≤ 31
  bsk_alpha : P.trgswLv1.ALPHA = P.tlweLv1.ALPHA ∧ P.trlweLv1.ALPHA = P.tlweLv1.ALPHA
  block_pos : 1 ≤ P.trgswLv1.BlockSize

/-- Every level is one of eleven tables. -/
theorem paramsFor_cases (level : SecurityLevel) :
    (level = 80 ∧ paramsFor level = params80Bit) ∨ (level = 110 ∧ paramsFor level = params110Bit) ∨
    (level = 1 ∧ paramsFor level = paramsUint1) ∨ (level = 2 ∧ paramsFor level = paramsUint2) ∨
    (level = 3 ∧ paramsFor level = paramsUint3) ∨ (level = 4 ∧ paramsFor level = paramsUint4) ∨
    (level = 5 ∧ paramsFor level = paramsUint5) ∨ (level = 6 ∧ paramsFor level = paramsUint6) ∨
    (level = 7 ∧ paramsFor level = paramsUint7) ∨ (level = 8 ∧ paramsFor level = paramsUint8) ∨
    (level ∉ ({80, 110, 1, 2, 3, 4, 5, 6, 7, 8} : Set ℤ) ∧ paramsFor level = params128Bit) := by
  by_cases h80 : level = 80
  · subst h80; exact Or.inl ⟨rfl, rfl⟩
  by_cases h110 : level = 110
  · subst h110; exact Or.inr (Or.inl ⟨rfl, rfl⟩)
  by_cases h1 : level = 1
  · subst h1; exact Or.inr (Or.inr (Or.inl ⟨rfl, rfl⟩))
  by_cases h2 : level = 2
  · subst h2; exact Or.inr (Or.inr (Or.inr (Or.inl ⟨rfl, rfl⟩)))
  by_cases h3 : level = 3
  · subst h3; exact Or.inr (Or.inr (Or.inr (Or.inr (Or.inl ⟨rfl, rfl⟩))))
  by_cases h4 : level = 4
  · subst h4; exact Or.inr (Or.inr (Or.inr (Or.inr (Or.inr (Or.inl ⟨rfl, rfl⟩)))))
  by_cases h5 : level = 5
  · subst h5; exact Or.inr (Or.inr (Or.inr (Or.inr (Or.inr (Or.inr (Or.inl ⟨rfl, rfl⟩))))))
  by_cases h6 : level = 6
  · subst h6; exact Or.inr (Or.inr (Or.inr (Or.inr (Or.inr (Or.inr (Or.inr (Or.inl ⟨rfl, rfl⟩)))))))
  by_cases h7 : level = 7
  · subst h7
    exact Or.inr (Or.inr (Or.inr (Or.inr (Or.inr (Or.inr (Or.inr (Or.inr (Or.inl ⟨rfl, rfl⟩))))))))
  by_cases h8 : level = 8
  · subst h8
    exact Or.inr (Or.inr (Or.inr (Or.inr (Or.inr (Or.inr (Or.inr (Or.inr (Or.inr (Or.inl ⟨rfl, rfl⟩)))))))))
  · refine Or.inr (Or.inr (Or.inr (Or.inr (Or.inr (Or.inr (Or.inr (Or.inr (Or.inr (Or.inr ⟨?_, ?_⟩)))))))))
    · simp [h80, h110, h1, h2, h3, h4, h5, h6, h7, h8]
    · simp [paramsFor, getTLWELv0, getTLWELv1, getTRLWELv1, getTRGSWLv1,
        h80, h110, h1, h2, h3, h4, h5, h6, h7, h8]

/-- C63: every int level gives a well-formed parameter set. -/
theorem C63_wellFormed (level : SecurityLevel) : WellFormed (paramsFor level) := by
  rcases paramsFor_cases level with ⟨-, h⟩ | ⟨-, h⟩ | ⟨-, h⟩ | ⟨-, h⟩ | ⟨-, h⟩ | ⟨-, h⟩ | ⟨-, h⟩ |
    ⟨-, h⟩ | ⟨-, h⟩ | ⟨-, h⟩ | ⟨-, h⟩ <;> rw [h] <;> constructor <;> first | decide | exact ⟨rfl, rfl⟩

/-- C63: the noise parameters of the two cloud keys are those of the matching level. -/
theorem C63_alphas (level : SecurityLevel) :
    kskAlpha (paramsFor level) = (getTLWELv0 level).ALPHA ∧
    bskAlpha (paramsFor level) = (getTRGSWLv1 level).ALPHA :=
  ⟨rfl, (C63_wellFormed level).bsk_alpha.1.symm⟩

/-- C63: the level in force at program start is the 128-bit table, and so is every unknown level. -/
theorem C63_default (level : SecurityLevel)
    (h : level ∉ ({80, 110, 1, 2, 3, 4, 5, 6, 7, 8} : Set ℤ)) :
    paramsFor level = params128Bit ∧ paramsFor initialLevel = params128Bit := by
  refine ⟨?_, rfl⟩
  simp only [Set.mem_insert_iff, Set.mem_singleton_iff, not_or] at h
  rcases paramsFor_cases level with ⟨e, _⟩ | ⟨e, _⟩ | ⟨e, _⟩ | ⟨e, _⟩ | ⟨e, _⟩ | ⟨e, _⟩ | ⟨e, _⟩ |
    ⟨e, _⟩ | ⟨e, _⟩ | ⟨e, _⟩ | ⟨_, e⟩
  · exact absurd e h.1
  · exact absurd e h.2.1
  · exact absurd e h.2.2.1
  · exact absurd e h.2.2.2.1
  · exact absurd e h.2.2.2.2.1
  · exact absurd e h.2.2.2.2.2.1
  · exact absurd e h.2.2.2.2.2.2.1
  · exact absurd e h.2.2.2.2.2.2.2.1
  · exact absurd e h.2.2.2.2.2.2.2.2.1
  · exact absurd e h.2.2.2.2.2.2.2.2.2
  · exact e

/-- C64: the block count is the least number of blocks that covers the LWE dimension. -/
theorem C64_blockCount (P : Params) (h : 1 ≤ P.trgswLv1.BlockSize) :
    P.tlweLv0.N ≤ getBlockCount P * P.trgswLv1.BlockSize ∧
    ∀ k, P.tlweLv0.N ≤ k * P.trgswLv1.BlockSize → getBlockCount P ≤ k := by
  unfold getBlockCount
  generalize P.tlweLv0.N = n
  generalize P.trgswLv1.BlockSize = b at h
  simp only
  split_ifs with hb
  · have : b = 1 := by omega
    subst this
    simp
  · constructor
    · have h1 := Nat.lt_div_mul_add (a := n + b - 1) (b := b) (by omega)
      omega
    · intro k hk
      have h1 : n + b - 1 < (k + 1) * b := by rw [add_mul, one_mul]; omega
      have := (Nat.div_lt_iff_lt_mul (by omega : 0 < b)).2 h1
      omega

/-- C64 at every level (in particular its hypothesis is met), and block rotation is always on. -/
theorem C64_levels (level : SecurityLevel) :
    1 ≤ (paramsFor level).trgswLv1.BlockSize ∧ useBlockBlindRotation (paramsFor level) = true ∧
    (paramsFor level).tlweLv0.N ≤ getBlockCount (paramsFor level) * (paramsFor level).trgswLv1.BlockSize := by
  refine ⟨(C63_wellFormed level).block_pos, ?_, (C64_blockCount _ (C63_wellFormed level).block_pos).1⟩
  rcases paramsFor_cases level with ⟨-, h⟩ | ⟨-, h⟩ | ⟨-, h⟩ | ⟨-, h⟩ | ⟨-, h⟩ | ⟨-, h⟩ | ⟨-, h⟩ |
    ⟨-, h⟩ | ⟨-, h⟩ | ⟨-, h⟩ | ⟨-, h⟩ <;> rw [h] <;> decide

/-- The sampling loop returns `1` exactly at the coins equal to one. -/
theorem keyLoop_eq (n : ℕ) (coin : ℕ → ℕ) :
    keyLoop n coin = some (tab n fun i => if coin i = 1 then (1 : Torus) else 0) := by
  unfold keyLoop
  apply forRange_fill_full _ _ _ (by simp)
  intro i hi r hr
  split_ifs <;> rfl

/-- C65: keys are binary, of the right lengths, and follow the coins, for every tape. -/
theorem C65_secretKey (P : Params) (coin0 coin1 : ℕ → ℕ) :
    ∃ sk, newSecretKey P coin0 coin1 = some sk ∧
      sk.keyLv0.length = P.tlweLv0.N ∧ sk.keyLv1.length = P.tlweLv1.N ∧
      IsBinary sk.keyLv0 ∧ IsBinary sk.keyLv1 ∧
      (∀ i < P.tlweLv0.N, at' sk.keyLv0 i = 1 ↔ coin0 i = 1) ∧
      (∀ i < P.tlweLv1.N, at' sk.keyLv1 i = 1 ↔ coin1 i = 1) := by
  have hb : ∀ n (coin : ℕ → ℕ), IsBinary (tab n fun i => if coin i = 1 then (1 : Torus) else 0) := by
    intro n coin x hx
    simp only [tab, List.mem_map] at hx
    obtain ⟨i, -, rfl⟩ := hx
    split_ifs
    · exact Or.inr rfl
    · exact Or.inl rfl
  have ha : ∀ n (coin : ℕ → ℕ) i, i < n →
      (at' (tab n fun i => if coin i = 1 then (1 : Torus) else 0) i = 1 ↔ coin i = 1) := by
    intro n coin i hi
    rw [at'_tab _ _ _ hi]
    split_ifs with h
    · exact ⟨fun _ => h, fun _ => rfl⟩
    · exact ⟨fun e => absurd e (by decide), fun e => absurd e h⟩
  unfold newSecretKey
  rw [keyLoop_eq, keyLoop_eq]
  exact ⟨_, rfl, by simp, by simp, hb _ _, hb _ _, ha _ _, ha _ _⟩

example : ∃ sk, newSecretKey (paramsFor 80) (fun i => i % 2) (fun _ => 1) = some sk ∧ at' sk.keyLv0 1 = 1 := by
  obtain ⟨sk, h, _, _, _, _, h0, _⟩ := C65_secretKey (paramsFor 80) (fun i => i % 2) (fun _ => 1)
  exact ⟨sk, h, (h0 1 (by decide)).2 rfl⟩

end GoTfhe
