import Verif.Model.Fft
import Verif.Lemmas.Prelude
import Mathlib.Tactic.Ring
import Mathlib.Data.Nat.Bitwise

/-! # Bit reversal -/

namespace GoTfhe

/-- `i` with its lowest `k` binary digits in reverse order -/
def rev : ℕ → ℕ → ℕ
  | 0, _ => 0
  | k + 1, i => i % 2 * 2 ^ k + rev k (i / 2)

theorem rev_lt : ∀ k i, rev k i < 2 ^ k
  | 0, _ => by simp [rev]
  | k + 1, i => by
    have := rev_lt k (i / 2)
    have h2 : i % 2 < 2 := Nat.mod_lt _ (by omega)
    rw [rev, pow_succ]
    rcases (by omega : i % 2 = 0 ∨ i % 2 = 1) with h | h <;> rw [h] <;> omega

theorem testBit_rev : ∀ k i b, (rev k i).testBit b = (decide (b < k) && i.testBit (k - 1 - b))
  | 0, i, b => by simp [rev]
  | k + 1, i, b => by
    rw [rev, mul_comm, Nat.testBit_two_pow_mul_add _ (rev_lt k _), testBit_rev k]
    by_cases hb : b < k
    · rw [if_pos hb]
      have e : k + 1 - 1 - b = (k - 1 - b) + 1 := by omega
      rw [e, Nat.testBit_succ]
      simp [hb, Nat.lt_succ_of_lt hb]
    · rw [if_neg hb]
      by_cases hb' : b = k
      · subst hb'
        simp only [Nat.sub_self, Nat.lt_add_one, decide_true, Bool.true_and, Nat.add_sub_cancel]
        rw [Nat.testBit_zero, Nat.testBit_zero]
        congr 1
        simp
      · have h1 : ¬ b < k + 1 := by omega
        simp only [h1, decide_false, Bool.false_and]
        have : 1 ≤ b - k := by omega
        apply Nat.testBit_lt_two_pow
        calc i % 2 < 2 := Nat.mod_lt _ (by omega)
          _ = 2 ^ 1 := rfl
          _ ≤ 2 ^ (b - k) := Nat.pow_le_pow_right (by omega) this

theorem rev_rev (k i : ℕ) (hi : i < 2 ^ k) : rev k (rev k i) = i := by
  apply Nat.eq_of_testBit_eq
  intro b
  rw [testBit_rev, testBit_rev]
  by_cases hb : b < k
  · have e : k - 1 - (k - 1 - b) = b := by omega
    have h2 : k - 1 - b < k := by omega
    simp [hb, h2, e]
  · simp only [hb, decide_false, Bool.false_and]
    symm
    exact Nat.testBit_lt_two_pow (lt_of_lt_of_le hi (Nat.pow_le_pow_right (by omega) (by omega)))

theorem rev_unique (k i j : ℕ) (hj : j < 2 ^ k)
    (h : ∀ b < k, j.testBit b = i.testBit (k - 1 - b)) : j = rev k i := by
  apply Nat.eq_of_testBit_eq
  intro b
  rw [testBit_rev]
  by_cases hb : b < k
  · simp [hb, h b hb]
  · simp only [hb, decide_false, Bool.false_and]
    exact Nat.testBit_lt_two_pow (lt_of_lt_of_le hj (Nat.pow_le_pow_right (by omega) (by omega)))

/-- A shorter reversal inside a longer one. -/
theorem rev_add (d : ℕ) : ∀ s i, i < 2 ^ s → rev (s + d) i = 2 ^ d * rev s i
  | 0, i, h => by
    have : i = 0 := by simpa using h
    subst this
    have z : ∀ d, rev d 0 = 0 := fun d => by
      induction d with
      | zero => rfl
      | succ d ih => simp [rev, ih]
    simp [z]
  | s + 1, i, h => by
    have e : s + 1 + d = (s + d) + 1 := by omega
    rw [e, rev, rev, rev_add d s (i / 2) (by rw [pow_succ] at h; omega), pow_add]
    ring

theorem bitRevStep_rev : ∀ k i fuel, k + 1 ≤ fuel → bitRevStep fuel (2 ^ k) (rev (k + 1) i) = rev (k + 1) (i + 1)
  | k, i, 0, h => by omega
  | k, i, fuel + 1, h => by
    have hl := rev_lt k (i / 2)
    have hp : 0 < 2 ^ k := Nat.pow_pos (by omega)
    rw [bitRevStep]
    rcases (by omega : i % 2 = 0 ∨ i % 2 = 1) with h2 | h2
    · have hh : (i + 1) / 2 = i / 2 := by omega
      have hm : (i + 1) % 2 = 1 := by omega
      rw [if_neg (by rw [rev, h2]; omega), rev, rev, h2, hh, hm]
      omega
    · have hh : (i + 1) / 2 = i / 2 + 1 := by omega
      have hm : (i + 1) % 2 = 0 := by omega
      rw [if_pos (by rw [rev, h2]; omega)]
      have e1 : rev (k + 1) i - 2 ^ k = rev k (i / 2) := by rw [rev, h2]; omega
      rw [e1]
      match k, fuel with
      | 0, 0 => simp [bitRevStep, rev, hm]
      | 0, fuel + 1 => simp [bitRevStep, rev, hm]
      | k + 1, fuel =>
        have e2 : 2 ^ (k + 1) >>> 1 = 2 ^ k := by
          rw [Nat.shiftRight_eq_div_pow, pow_succ]; simp
        rw [e2, bitRevStep_rev k (i / 2) fuel (by omega)]
        rw [show rev (k + 1 + 1) (i + 1) = (i + 1) % 2 * 2 ^ (k + 1) + rev (k + 1) ((i + 1) / 2) from rfl, hh, hm]
        omega

theorem bitReverse_tab {α : Type} (k : ℕ) (g : ℕ → α) :
    bitReverseInPlace (tab (2 ^ k) g) = some (tab (2 ^ k) fun x => g (rev k x)) := by
  rw [bitReverseInPlace]
  simp only [length_tab]
  match k with
  | 0 =>
    rw [if_pos (by simp)]
    congr 1
  | k + 1 =>
    have hn : ¬ (2 ^ (k + 1) ≤ 1) := by
      have := Nat.pow_pos (a := 2) (n := k) (by omega)
      rw [pow_succ]; omega
    rw [if_neg hn]
    set n := 2 ^ (k + 1) with hnd
    have e2 : n >>> 1 = 2 ^ k := by
      rw [hnd, Nat.shiftRight_eq_div_pow, pow_succ]; simp
    have hfuel : k + 1 ≤ n := le_of_lt (by rw [hnd]; exact Nat.lt_two_pow_self)
    let S : ℕ → ℕ × List α := fun i =>
      (rev (k + 1) i, tab n fun x => if min x (rev (k + 1) x) < i then g (rev (k + 1) x) else g x)
    have h0 : ((0, tab n g) : ℕ × List α) = S 0 := by
      have z : rev (k + 1) 0 = 0 := by
        have := rev_add (k + 1) 0 0 (by simp)
        simpa [rev] using this
      simp only [S, Nat.not_lt_zero, if_false, z]
    rw [h0, forRange_eq n _ S]
    · simp only [S, Option.bind_eq_bind, Option.bind_some, Option.pure_def]
      congr 1
      apply tab_congr
      intro x hx
      rw [if_pos (by omega)]
    · intro i hi
      have hr := rev_lt (k + 1) i
      rw [← hnd] at hr
      have hrr := rev_rev (k + 1) i hi
      have hstep := bitRevStep_rev k i n hfuel
      simp only [S, e2, hstep, Option.bind_eq_bind, Option.pure_def]
      by_cases hij : i < rev (k + 1) i
      · rw [if_pos hij, rd_tab _ _ _ hi, Option.bind_some, rd_tab _ _ _ hr, Option.bind_some,
          wr_eq _ _ _ (by simpa using hi), Option.bind_some, wr_eq _ _ _ (by simpa using hr), Option.bind_some]
        congr 2
        apply List.ext_getElem (by simp)
        intro x h1 h2
        have hx : x < n := by simpa using h2
        simp only [List.getElem_set, getElem_tab]
        rw [hrr]
        by_cases e1 : rev (k + 1) i = x
        · subst e1
          rw [if_pos rfl, hrr, if_neg (by omega), if_pos (by omega)]
        · rw [if_neg e1]
          by_cases e3 : i = x
          · subst e3
            rw [if_pos rfl, if_neg (by omega), if_pos (by omega)]
          · rw [if_neg e3]
            have : min x (rev (k + 1) x) ≠ i := by
              intro hm
              have hxr : rev (k + 1) x = i := by omega
              apply e1
              rw [← hxr, rev_rev _ _ hx]
            by_cases h3 : min x (rev (k + 1) x) < i
            · rw [if_pos h3, if_pos (by omega)]
            · rw [if_neg h3, if_neg (by omega)]
      · rw [if_neg hij, Option.bind_some]
        congr 2
        apply tab_congr
        intro x hx
        by_cases h3 : min x (rev (k + 1) x) < i
        · rw [if_pos h3, if_pos (by omega)]
        · rw [if_neg h3]
          by_cases h4 : min x (rev (k + 1) x) < i + 1
          · rw [if_pos h4]
            by_cases hxi : x = i
            · subst hxi
              rw [show rev (k + 1) x = x by omega]
            · have hxr : rev (k + 1) x = i := by omega
              have : x = rev (k + 1) i := by rw [← hxr, rev_rev _ _ hx]
              omega
          · rw [if_neg h4]

theorem bitReverse_eq {α : Type} (k : ℕ) (d : List α) (hd : d.length = 2 ^ k) :
    ∃ r, bitReverseInPlace d = some r ∧ r.length = 2 ^ k ∧ ∀ i, i < 2 ^ k → r[rev k i]? = d[i]? := by
  rcases d with _ | ⟨a, t⟩
  · have := Nat.pow_pos (a := 2) (n := k) (by omega)
    simp at hd; omega
  · obtain ⟨g, hg⟩ : ∃ g : ℕ → α, a :: t = tab (2 ^ k) g := by
      refine ⟨fun i => (a :: t).getD i a, ?_⟩
      apply List.ext_getElem (by simpa using hd)
      intro i h1 h2
      rw [getElem_tab, List.getD_eq_getElem _ _ h1]
    rw [hg, bitReverse_tab]
    refine ⟨_, rfl, by simp, ?_⟩
    intro i hi
    rw [getElem?_tab, getElem?_tab, if_pos hi, if_pos (rev_lt k i), rev_rev _ _ hi]

end GoTfhe
