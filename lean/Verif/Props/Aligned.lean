import Verif.Props.Trlwe

/-!
# The constructors of aligned polynomials (C94)

`NewPolyAligned` and `NewFourierPolyAligned` say that they return cache-line aligned memory.  They derive the offset from
the length of the slice instead of its address, so the offset is always zero.
-/

namespace GoTfhe

/-- The size of a cache line in bytes, as `/repo/poly/aligned.go:18` and `:46` have it -/
def cacheLine : ℕ := 64

private theorem newAlignedAt_eq {α : Type} (line elem base : ℕ) (z : α) (N : ℤ) (hl : line = 16 ∨ line = 8)
    (h : ∃ k ≥ 4, N = 2 ^ k) :
    newAlignedAt line elem base z N = some ⟨base, N.toNat + line, mkSlice N.toNat z⟩ := by
  obtain ⟨k, hk, rfl⟩ := h
  have hp : newPoly (2 ^ k) = some (mkSlice ((2 : ℤ) ^ k).toNat 0) := ((C23_constructors z (2 ^ k)).1 ⟨k, hk, rfl⟩).1
  have hg : ¬ isPowerOfTwo (2 ^ k) = false ∧ ¬ (2 ^ k : ℤ) < minDegree := by
    unfold newPoly at hp
    split_ifs at hp with h1 h2
    exact ⟨h1, h2⟩
  obtain ⟨j, rfl⟩ : ∃ j, k = j + 4 := ⟨k - 4, by omega⟩
  have hn : ((2 : ℤ) ^ (j + 4)).toNat = 16 * 2 ^ j := by
    rw [show (2 : ℤ) ^ (j + 4) = ((16 * 2 ^ j : ℕ) : ℤ) by push_cast; ring, Int.toNat_natCast]
  have hz : (((2 : ℤ) ^ (j + 4)).toNat + line) % line = 0 := by
    rw [hn]
    rcases hl with rfl | rfl <;> omega
  unfold newAlignedAt
  rw [if_neg hg.1, if_neg hg.2]
  simp only [length_mkSlice, hz, ne_eq, not_true_eq_false, if_false, ite_self, Nat.zero_add, Nat.mul_zero, Nat.add_zero]
  have hs := goSlice_replicate z (((2 : ℤ) ^ (j + 4)).toNat + line) 0 ((2 : ℤ) ^ (j + 4)).toNat (by omega)
  rw [Nat.zero_add] at hs
  rw [hs]
  rfl

/-- **C94**, what holds: for every degree that is accepted the slice begins where the allocation begins, so it is aligned to a
cache line exactly when the allocation happens to be. The space for alignment is allocated and never used. -/
theorem C94_offset_partial {R : Type} (z : R) (base : ℕ) (N : ℤ) (h : ∃ k ≥ 4, N = 2 ^ k) :
    newPolyAlignedAt base N = some ⟨base, N.toNat + 16, mkSlice N.toNat 0⟩ ∧
    newFourierPolyAlignedAt base z N = some ⟨base, N.toNat + 8, mkSlice N.toNat z⟩ :=
  ⟨newAlignedAt_eq 16 4 base 0 N (Or.inl rfl) h, newAlignedAt_eq 8 8 base z N (Or.inr rfl) h⟩

/-- **C94** is false: for every degree there are allocations at multiples of the element size for which the result is not
aligned to a cache line. -/
theorem C94_false_aligned {R : Type} (z : R) (N : ℤ) (h : ∃ k ≥ 4, N = 2 ^ k) :
    (∃ base p, 4 ∣ base ∧ newPolyAlignedAt base N = some p ∧ ¬ cacheLine ∣ p.addr) ∧
    (∃ base p, 8 ∣ base ∧ newFourierPolyAlignedAt base z N = some p ∧ ¬ cacheLine ∣ p.addr) :=
  ⟨⟨4, _, by decide, (C94_offset_partial z 4 N h).1, (by decide : ¬ cacheLine ∣ 4)⟩, ⟨8, _, by decide, (C94_offset_partial z 8 N h).2, (by decide : ¬ cacheLine ∣ 8)⟩⟩

/-- **C94**: the allocation does have room for an aligned slice of the right length, wherever it is. -/
theorem C94_room {R : Type} (z : R) (base : ℕ) (N : ℤ) (h : ∃ k ≥ 4, N = 2 ^ k) :
    (4 ∣ base → ∃ p off, newPolyAlignedAt base N = some p ∧ cacheLine ∣ base + 4 * off ∧ off + N.toNat ≤ p.allocated) ∧
    (8 ∣ base → ∃ p off, newFourierPolyAlignedAt base z N = some p ∧ cacheLine ∣ base + 8 * off ∧
      off + N.toNat ≤ p.allocated) := by
  constructor
  · intro hb
    refine ⟨_, (64 - base % 64) % 64 / 4, (C94_offset_partial z base N h).1, ?_, ?_⟩
    · unfold cacheLine; omega
    · simp only; omega
  · intro hb
    refine ⟨_, (64 - base % 64) % 64 / 8, (C94_offset_partial z base N h).2, ?_, ?_⟩
    · unfold cacheLine; omega
    · simp only; omega

/-- A case: the degree of the library, an allocation 20 bytes past a cache line. -/
example : newPolyAlignedAt 84 1024 = some ⟨84, 1040, mkSlice 1024 0⟩ ∧ ¬ cacheLine ∣ 84 :=
  ⟨(C94_offset_partial (0 : ℕ) 84 1024 ⟨10, by norm_num, by norm_num⟩).1, by decide⟩

end GoTfhe
