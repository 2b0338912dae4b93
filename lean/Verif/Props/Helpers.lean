import Verif.Model.Helpers
import Verif.Lemmas.Prelude
import Verif.Spec.Basic
import Mathlib.Tactic.IntervalCases
import Mathlib.Data.Nat.Log

/-!
# C81: descriptions of levels and helpers of polynomials
-/

namespace GoTfhe

/-- **C81 (descriptions).** At each of the eight integer levels `SecurityInfo` names the number of
message bits, the modulus `2^bits` and the degree that the parameters of this level really have; any
other value than the named levels is described as 128-bit security, and gets those parameters. -/
theorem C81_securityInfo :
    (∀ b : ℕ, 2 ≤ b → b ≤ 8 → securityInfo b =
      s!"Uint{b} parameters ({b}-bit messages, messageModulus={2 ^ b}, N={(paramsFor b).trgswLv1.N})") ∧
    securityInfo 1 =
      s!"Uint1 parameters (1-bit binary/boolean, messageModulus={2 ^ 1}, N={(paramsFor 1).trgswLv1.N})" ∧
    ∀ level : ℤ, level ∉ ({80, 110, 1, 2, 3, 4, 5, 6, 7, 8} : Set ℤ) →
      securityInfo level = "128-bit security (high security, quantum-resistant)" ∧
        paramsFor level = params128Bit := by
  refine ⟨fun b h1 h2 => ?_, by decide +kernel, fun level h => ?_⟩
  · interval_cases b <;> decide +kernel
  · simp only [Set.mem_insert_iff, Set.mem_singleton_iff, not_or] at h
    obtain ⟨h80, h110, h1, h2, h3, h4, h5, h6, h7, h8⟩ := h
    exact ⟨by simp [securityInfo, h80, h110, h1, h2, h3, h4, h5, h6, h7, h8],
      by simp [paramsFor, getTLWELv0, getTLWELv1, getTRLWELv1, getTRGSWLv1,
        h80, h110, h1, h2, h3, h4, h5, h6, h7, h8]⟩

theorem log2Loop_eq (n log : ℕ) : log2Loop n log = Nat.log 2 n + log := by
  induction n using Nat.strong_induction_on generalizing log with
  | _ n ih =>
    rw [log2Loop]
    split
    · rename_i h
      rw [Nat.shiftRight_one, ih (n / 2) (by omega), Nat.log_of_one_lt_of_le (b := 2) (by norm_num) h]
      omega
    · rename_i h
      rw [Nat.log_of_lt (by omega), Nat.zero_add]

/-- **C81 (log2).** `log2(n)` panics exactly for `n ≤ 0`, and otherwise is the `k` with
`2^k ≤ n < 2^(k+1)`. -/
theorem C81_log2 (n : ℤ) :
    (log2Go n = none ↔ n ≤ 0) ∧ ∀ k : ℕ, log2Go n = some k ↔ (2 ^ k : ℤ) ≤ n ∧ n < 2 ^ (k + 1) := by
  unfold log2Go
  constructor
  · split <;> simp [*]
  · intro k
    by_cases h : n ≤ 0
    · rw [if_pos h]
      refine ⟨fun e => (by cases e), fun e => ?_⟩
      have := e.1
      have : (0 : ℤ) < 2 ^ k := by positivity
      omega
    · rw [if_neg h]
      obtain ⟨m, rfl⟩ : ∃ m : ℕ, n = m := ⟨n.toNat, by omega⟩
      rw [Int.toNat_natCast, log2Loop_eq, Nat.add_zero, Option.some.injEq,
        Nat.log_eq_iff (Or.inr ⟨by norm_num, by omega⟩)]
      norm_cast

/-- **C81 (copies and clearing).** `Copy` returns the same coefficients; `Clear` never panics and makes
every coefficient zero without changing the degree. -/
theorem C81_copy_clear (p : List Torus) :
    copyPoly p = p ∧ clearPoly p = some (tab p.length fun _ => 0) := by
  refine ⟨?_, ?_⟩
  · unfold copyPoly copySlice
    simp
  · exact forRange_fill_full p.length p (fun _ => 0) rfl _ fun i hi r hr => rfl

/-- **C81 (clearing a pair).** `ClearTRLWEBuffer(a, b)` panics exactly when `b` is shorter than `a`;
otherwise every entry of `a` becomes zero, and so do the entries of `b` at the same places, while the
further entries of `b` keep their values. -/
theorem C81_clearTRLWE (a b : List Torus) :
    clearTRLWEBuffer a b = if b.length < a.length then none
      else some (tab a.length fun _ => 0, tab b.length fun i => if i < a.length then 0 else at' b i) := by
  have hstep : ∀ i, i < a.length → i < b.length →
      (fun (s : List Torus × List Torus) => (do
        let a ← wr s.1 i 0
        let b ← wr s.2 i 0
        pure (a, b) : Option (List Torus × List Torus)))
        (filled i (fun _ => (0 : Torus)) a, filled i (fun _ => (0 : Torus)) b) =
      some (filled (i + 1) (fun _ => (0 : Torus)) a, filled (i + 1) (fun _ => (0 : Torus)) b) := by
    intro i h1 h2
    simp only
    rw [wr_filled i (fun _ => (0 : Torus)) a h1, wr_filled i (fun _ => (0 : Torus)) b h2]
    rfl
  have h0 : ∀ l : List Torus, filled 0 (fun _ => (0 : Torus)) l = l := fun l => by simp [filled, tab]
  unfold clearTRLWEBuffer
  split
  · rename_i h
    have := forRange_none a.length b.length h (fun i (s : List Torus × List Torus) => (do
        let a ← wr s.1 i 0
        let b ← wr s.2 i 0
        pure (a, b) : Option (List Torus × List Torus)))
      (fun i => (filled i (fun _ => (0 : Torus)) a, filled i (fun _ => (0 : Torus)) b))
      (fun i hi => hstep i (by omega) hi) (by
        simp only
        rw [wr_filled _ (fun _ => (0 : Torus)) a h]
        simp only [Option.bind_eq_bind, Option.bind_some]
        have hl : (filled b.length (fun _ => (0 : Torus)) b).length = b.length :=
          length_filled _ _ _ le_rfl
        rw [wr, if_neg (by omega)]
        rfl)
    simp only [h0] at this
    exact this
  · rename_i h
    have := forRange_eq a.length (fun i (s : List Torus × List Torus) => (do
        let a ← wr s.1 i 0
        let b ← wr s.2 i 0
        pure (a, b) : Option (List Torus × List Torus)))
      (fun i => (filled i (fun _ => (0 : Torus)) a, filled i (fun _ => (0 : Torus)) b))
      (fun i hi => hstep i hi (by omega))
    simp only [h0] at this
    rw [this, filled_full' a.length _ a rfl]
    congr 2
    apply List.ext_getElem?
    intro i
    rw [filled_getElem? _ _ _ (by omega), getElem?_tab]
    by_cases h1 : i < a.length
    · rw [if_pos h1, if_pos (by omega), if_pos h1]
    · rw [if_neg h1]
      split_ifs with h2
      · rw [at'_of_lt b i h2, List.getElem?_eq_getElem h2]
      · exact List.getElem?_eq_none (by omega)

/-- **C81 (decomposition buffers).** `CopyToDecompBuffer(src, i)` panics exactly when `i` is no buffer;
otherwise it changes this buffer only: the entries that the source has are replaced by those of the source, the
further ones keep their values. For a source of the same length it becomes equal to the source. -/
theorem C81_copyToDecompBuffer (bufs : List (List Torus)) (src : List Torus) (i : ℕ) :
    (copyToDecompBuffer bufs src i = none ↔ bufs.length ≤ i) ∧
      ∀ r, copyToDecompBuffer bufs src i = some r → r.length = bufs.length ∧
        (∀ j, j ≠ i → r[j]? = bufs[j]?) ∧
        (∀ b, bufs[i]? = some b →
          r[i]? = some (tab b.length fun j => if j < src.length then at' src j else at' b j)) ∧
        ((bufs[i]?).map List.length = some src.length → r[i]? = some src) := by
  unfold copyToDecompBuffer
  by_cases h : bufs.length ≤ i
  · simp [h]
  · have hi : i < bufs.length := by omega
    have hr : rd bufs i = some bufs[i] := by rw [rd, List.getElem?_eq_getElem hi]
    rw [if_neg h, hr]
    simp only [Option.bind_eq_bind, Option.bind_some, wr_eq _ _ _ hi]
    refine ⟨by simp [h], fun r e => ?_⟩
    obtain rfl := Option.some.inj e
    refine ⟨by simp, fun j hj => List.getElem?_set_ne (Ne.symm hj), fun b hb => ?_, fun hl => ?_⟩
    · rw [List.getElem?_eq_getElem hi, Option.some.injEq] at hb
      rw [List.getElem?_set_self hi, hb, copySlice, Option.some.injEq]
      apply List.ext_getElem
      · simp [length_tab]; omega
      · intro j h1 h2
        rw [length_tab] at h2
        rw [getElem_tab, List.getElem_append]
        split
        · rename_i h3
          rw [List.length_take] at h3
          rw [if_pos (by omega), List.getElem_take, at'_of_lt src j (by omega)]
        · rename_i h3
          rw [List.length_take] at h3
          rw [if_neg (by omega), List.getElem_drop, at'_of_lt b j h2]
          congr 1
          rw [List.length_take]; omega
    rw [List.getElem?_eq_getElem hi, Option.map_some, Option.some.injEq] at hl
    rw [List.getElem?_set_self hi, copySlice, hl, List.take_length, List.drop_eq_nil_of_le hl.le,
      List.append_nil]

example : clearTRLWEBuffer [1, 2] [3, 4, 5] = some ([0, 0], [0, 0, 5]) ∧
    clearTRLWEBuffer [1, 2] [3] = none ∧
    copyToDecompBuffer [[1, 2], [3, 4]] [7, 8] 1 = some [[1, 2], [7, 8]] ∧
    copyToDecompBuffer [[1, 2], [3, 4]] [7] 1 = some [[1, 2], [7, 4]] := by decide

end GoTfhe
