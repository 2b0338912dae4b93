import Verif.Props.Buffers
import Verif.Props.Mono

/-!
# C80: the tables of evaluators, and what `MemoryUsage()` counts
-/

namespace GoTfhe

variable {R : Type}

/-- **C80 (tables).** For every accepted degree the slices that `NewEvaluator(N)` makes for its four tables have exactly
as many elements as it then stores in them: the two slices of twiddle factors, made with length 0 and a capacity, are
filled to their capacity by `append`. So no table is moved after it was made, and a `ShallowCopy` shares all of it. -/
theorem C80_tables (A : Arith R) (N : ℤ) (m m' : Mem) (b : PolyEvaluatorB)
    (h : newPolyEvaluatorB N m = some (b, m')) :
    ∃ e mono idx, newPolyEval A N = some e ∧ newMonoTables A N = some (mono, idx) ∧
      b.tables.tw.len = e.tw.length ∧ b.tables.twInv.len = e.twInv.length ∧
      b.tables.twMono.len = mono.length ∧ b.tables.twMonoIdx.len = idx.length ∧
      [b.tables.tw, b.tables.twInv, b.tables.twMono, b.tables.twMonoIdx].map Buf.width = [16, 16, 16, 8] := by
  have hd : Ensures (newPolyEvaluatorB N) fun b => DegreeOK N ∧ b.tables.tw.Is 16 (N / 2 - 1).toNat ∧
      b.tables.twInv.Is 16 (N / 2 - 1).toNat ∧ b.tables.twMono.Is 16 (2 * N).toNat ∧
      b.tables.twMonoIdx.Is 8 (N / 2).toNat :=
    Ensures.bind (ensures_checkDegree N) fun _ h0 => Ensures.bind (ensures_makeB 16 _) fun _ h1 =>
      Ensures.bind (ensures_makeB 16 _) fun _ h2 => Ensures.bind (ensures_makeB 16 _) fun _ h3 =>
      Ensures.bind (ensures_makeB 8 _) fun _ h4 => Ensures.bind (fun _ _ _ _ => trivial)
        fun _ (_ : True) => Ensures.pure ⟨h0, h1, h2, h3, h4⟩
  obtain ⟨h0, h1, h2, h3, h4⟩ := hd m b m' h
  obtain ⟨j, hj, rfl⟩ := (degreeOK_iff N).1 h0
  obtain ⟨k, rfl⟩ : ∃ k, j = k + 1 := ⟨j - 1, by omega⟩
  have hp : (2 : ℤ) ^ (k + 1) = ((2 ^ (k + 1) : ℕ) : ℤ) := by push_cast; rfl
  have hN2 : (2 ^ (k + 1) : ℕ) = 2 * 2 ^ k := by rw [pow_succ]; ring
  refine ⟨_, _, _, (newPolyEval_some A _ _).2 ⟨k, by omega, hp, rfl⟩, hp ▸ newMonoTables_eq A k (by omega), ?_⟩
  have hk : 1 ≤ (2 : ℕ) ^ k := Nat.one_le_two_pow
  have hZ : (2 : ℤ) ^ (k + 1) = 2 * ((2 ^ k : ℕ) : ℤ) := by rw [hp, hN2]; push_cast; rfl
  rw [hZ] at h1 h2 h3 h4
  simp only [List.map_cons, List.map_nil, h1.1, h2.1, h3.1, h4.1, h1.2, h2.2, h3.2, h4.2, pev, length_tab]
  rw [hN2]
  generalize (2 : ℕ) ^ k = M at hk
  refine ⟨by omega, by omega, by omega, by omega, trivial⟩

/-- **C80 (memory count).** The exact difference at every level. `MemoryUsage()` of the pool counts `8N(4 + 2L)` bytes
too many for the buffer manager and `8N(2·BlockSize·L + 1)` for the block rotation, for every Fourier polynomial that
it takes for `N` complex numbers. Of the seven LWE ciphertexts it counts five, each with `N` mask entries, although six
are of level 0. -/
theorem C80_overcount (level : SecurityLevel) (m m' : Mem) (e : EvaluatorB)
    (h : newEvaluatorB (paramsFor level) (paramsFor level).trgswLv1.N m = some (e, m')) :
    let G := (paramsFor level).trgswLv1
    e.buffers.memoryUsage (paramsFor level) = bytesOf e.buffers.bufs + 8 * G.N * (4 + 2 * G.L) +
      8 * G.N * (2 * G.BlockSize * G.L + 1) + (5 * 4 * (G.N + 1) - 4 * (G.N + 1) -
        6 * 4 * ((paramsFor level).tlweLv0.N + 1) : ℤ) := by
  obtain ⟨hs, -⟩ := ensures_evaluator _ _ m e m' h
  rw [Int.toNat_natCast] at hs
  have hb := hs.blockRotation
  have hm := manager_usage hs.polyBuffers
  intro G
  rw [hs.bytes, BufferPool.memoryUsage, hm, hs.polyBuffers.bytes]
  simp only [G]
  rcases paramsFor_cases level with h | h | h | h | h | h | h | h | h | h | h <;>
  · have h := h.2
    rw [h] at hb ⊢
    rw [if_pos (by decide)] at hb
    obtain ⟨r, hr, -⟩ := hb
    rw [hr, Option.isSome_some, if_pos rfl]
    decide +kernel

/-- A case for the two theorems above. -/
example (level : SecurityLevel) : ∃ e m', newEvaluatorB (paramsFor level) (paramsFor level).trgswLv1.N ⟨0, 0⟩ =
    some (e, m') ∧ ∃ b m'', newPolyEvaluatorB (paramsFor level).trgswLv1.N ⟨0, 0⟩ = some (b, m'') := by
  have W := C63_wellFormed level
  have hk : ∃ k ≥ 4, ((paramsFor level).trgswLv1.N : ℤ) = 2 ^ k := by
    have h16 := W.min_degree
    rw [W.pow2] at h16 ⊢
    exact ⟨(paramsFor level).trgswLv1.NBIT, (Nat.pow_le_pow_iff_right (by norm_num)).1
      (show 2 ^ 4 ≤ _ from h16), by push_cast; rfl⟩
  obtain ⟨⟨e, m'⟩, he⟩ := Option.isSome_iff_exists.1 ((C80_newEvaluator (paramsFor level) _ ⟨0, 0⟩).2 hk)
  obtain ⟨b, m1, h1, -⟩ := bind_some he
  exact ⟨e, m', he, b, m1, h1⟩

end GoTfhe
