import Verif.Model.Prelude
import Verif.Spec.Basic
import Mathlib.Algebra.BigOperators.Group.Finset.Basic
import Mathlib.Algebra.BigOperators.Ring.Finset
import Mathlib.Tactic.Ring
import Mathlib.Tactic.Linarith

/-!
# Reasoning rules for the Go prelude
-/

namespace GoTfhe

variable {α σ : Type*}

@[simp] theorem length_tab (n : ℕ) (g : ℕ → α) : (tab n g).length = n := by simp [tab]

@[simp] theorem getElem_tab (n : ℕ) (g : ℕ → α) (i : ℕ) (h : i < (tab n g).length) :
    (tab n g)[i] = g i := by simp [tab]

theorem getElem?_tab (n : ℕ) (g : ℕ → α) (i : ℕ) :
    (tab n g)[i]? = if i < n then some (g i) else none := by
  split_ifs with h
  · rw [List.getElem?_eq_getElem (by simpa using h)]; simp
  · exact List.getElem?_eq_none (by simpa using h)

theorem at'_tab (n : ℕ) (g : ℕ → Torus) (i : ℕ) (h : i < n) : at' (tab n g) i = g i := by
  simp [at', List.getD_eq_getElem?_getD, h]

theorem at'_of_lt (l : List Torus) (i : ℕ) (h : i < l.length) : at' l i = l[i] := by
  simp [at', List.getD_eq_getElem?_getD, h]

theorem tab_congr {n : ℕ} {f g : ℕ → α} (h : ∀ i < n, f i = g i) : tab n f = tab n g := by
  apply List.map_congr_left
  intro i hi
  exact h i (List.mem_range.1 hi)

theorem tab_inj {n : ℕ} {f g : ℕ → α} : tab n f = tab n g ↔ ∀ i < n, f i = g i := by
  refine ⟨fun h i hi => ?_, tab_congr⟩
  have := congrArg (fun l => l[i]?) h
  simpa [getElem?_tab, hi] using this

theorem eq_tab_of (l : List α) (n : ℕ) (g : ℕ → α) (hl : l.length = n)
    (h : ∀ i (hi : i < l.length), l[i] = g i) : l = tab n g := by
  apply List.ext_getElem
  · simp [hl]
  · intro i h1 h2
    simp [h i h1]

theorem tab_at' (l : List Torus) : tab l.length (at' l) = l := by
  symm
  apply eq_tab_of _ _ _ rfl
  intro i hi
  rw [at'_of_lt l i hi]

theorem ext_at' {l l' : List Torus} (hl : l.length = l'.length)
    (h : ∀ i < l.length, at' l i = at' l' i) : l = l' := by
  rw [← tab_at' l, ← tab_at' l', ← hl]
  exact tab_congr h

theorem at'_map (f : Torus → Torus) (l : List Torus) (i : ℕ) (h : i < l.length) :
    at' (l.map f) i = f (at' l i) := by
  rw [at'_of_lt _ _ (by simpa using h), at'_of_lt _ _ h]
  simp

theorem rd_eq (l : List α) (i : ℕ) (h : i < l.length) : rd l i = some l[i] := by
  simp [rd, h]

theorem rd_at' (l : List Torus) (i : ℕ) (h : i < l.length) : rd l i = some (at' l i) := by
  rw [rd_eq l i h, at'_of_lt l i h]

theorem rd_none (l : List α) (i : ℕ) (h : l.length ≤ i) : rd l i = none := by
  simp [rd, h]

theorem rd_tab (n : ℕ) (g : ℕ → α) (i : ℕ) (h : i < n) : rd (tab n g) i = some (g i) := by
  simp [rd, h]

theorem wr_eq (l : List α) (i : ℕ) (v : α) (h : i < l.length) : wr l i v = some (l.set i v) := by
  simp [wr, h]

theorem wr_none (l : List α) (i : ℕ) (v : α) (h : l.length ≤ i) : wr l i v = none := by
  simp [wr, Nat.not_lt.2 h]

theorem length_of_wr {l l' : List α} {i : ℕ} {v : α} (h : wr l i v = some l') :
    l'.length = l.length := by
  unfold wr at h
  split_ifs at h
  simp only [Option.some.injEq] at h
  simp [← h]

/-! ### Loops -/

theorem forRange_empty (lo hi : ℕ) (h : hi ≤ lo) (s : σ) (body : ℕ → σ → Option σ) :
    forRange lo hi s body = some s := by
  simp [forRange, Nat.sub_eq_zero_of_le h]

theorem forRange_succ_left (lo hi : ℕ) (h : lo < hi) (s : σ) (body : ℕ → σ → Option σ) :
    forRange lo hi s body = (body lo s).bind fun s' => forRange (lo + 1) hi s' body := by
  obtain ⟨k, rfl⟩ : ∃ k, hi = lo + (k + 1) := ⟨hi - lo - 1, by omega⟩
  have e1 : lo + (k + 1) - lo = k + 1 := by omega
  have e2 : lo + (k + 1) - (lo + 1) = k := by omega
  simp only [forRange, e1, e2, List.range'_succ, List.foldlM_cons]
  rfl

theorem forRange_succ_right (lo hi : ℕ) (h : lo ≤ hi) (s : σ) (body : ℕ → σ → Option σ) :
    forRange lo (hi + 1) s body = (forRange lo hi s body).bind fun s' => body hi s' := by
  obtain ⟨k, rfl⟩ : ∃ k, hi = lo + k := ⟨hi - lo, by omega⟩
  have e1 : lo + k + 1 - lo = k + 1 := by omega
  have e2 : lo + k - lo = k := by omega
  simp only [forRange, e1, e2]
  rw [List.range'_concat, List.foldlM_append]
  simp only [List.foldlM_cons, List.foldlM_nil, one_mul]
  change Option.bind _ (fun s' => Option.bind (body (lo + k) s') some) = _
  congr 1
  funext s'
  cases body (lo + k) s' <;> rfl

/-- The loop rule: an invariant that every iteration maintains (and whose maintenance shows that
the iteration does not panic). -/
theorem forRange_inv (lo hi : ℕ) (hle : lo ≤ hi) (s : σ) (body : ℕ → σ → Option σ)
    (I : ℕ → σ → Prop) (h0 : I lo s)
    (hstep : ∀ i s, lo ≤ i → i < hi → I i s → ∃ s', body i s = some s' ∧ I (i + 1) s') :
    ∃ s', forRange lo hi s body = some s' ∧ I hi s' := by
  induction hi, hle using Nat.le_induction with
  | base => exact ⟨s, forRange_empty _ _ le_rfl _ _, h0⟩
  | succ n hn ih =>
    obtain ⟨s1, e1, i1⟩ := ih fun i s h1 h2 => hstep i s h1 (by omega)
    obtain ⟨s2, e2, i2⟩ := hstep n s1 hn (by omega) i1
    exact ⟨s2, by rw [forRange_succ_right _ _ hn, e1]; exact e2, i2⟩

/-- A loop whose state after `i` iterations is known. -/
theorem forRange_eq (n : ℕ) (body : ℕ → σ → Option σ) (S : ℕ → σ)
    (hstep : ∀ i < n, body i (S i) = some (S (i + 1))) :
    forRange 0 n (S 0) body = some (S n) := by
  obtain ⟨s', e, h⟩ := forRange_inv 0 n (Nat.zero_le _) (S 0) body (fun i s => s = S i) rfl
    (fun i s _ h2 hs => ⟨S (i + 1), by rw [hs]; exact hstep i h2, rfl⟩)
  rw [e, h]

theorem forRange_eq' (lo hi : ℕ) (hle : lo ≤ hi) (body : ℕ → σ → Option σ) (S : ℕ → σ)
    (hstep : ∀ i, lo ≤ i → i < hi → body i (S i) = some (S (i + 1))) :
    forRange lo hi (S lo) body = some (S hi) := by
  obtain ⟨s', e, h⟩ := forRange_inv lo hi hle (S lo) body (fun i s => s = S i) rfl
    (fun i s h1 h2 hs => ⟨S (i + 1), by rw [hs]; exact hstep i h1 h2, rfl⟩)
  rw [e, h]

/-- If every iteration succeeds up to `k` and iteration `k` panics, the loop panics. -/
theorem forRange_none (n k : ℕ) (hk : k < n) (body : ℕ → σ → Option σ) (S : ℕ → σ)
    (hstep : ∀ i < k, body i (S i) = some (S (i + 1))) (hp : body k (S k) = none) :
    forRange 0 n (S 0) body = none := by
  have h1 : forRange 0 (k + 1) (S 0) body = none := by
    rw [forRange_succ_right _ _ (Nat.zero_le _), forRange_eq k body S hstep]
    exact hp
  have h2 : ∀ m, k + 1 ≤ m → forRange 0 m (S 0) body = none := by
    intro m hm
    induction m, hm using Nat.le_induction with
    | base => exact h1
    | succ m _ ih => rw [forRange_succ_right _ _ (Nat.zero_le _), ih]; rfl
  exact h2 n hk

theorem forRange_congr (lo hi : ℕ) (s : σ) (b1 b2 : ℕ → σ → Option σ)
    (h : ∀ i s, lo ≤ i → i < hi → b1 i s = b2 i s) :
    forRange lo hi s b1 = forRange lo hi s b2 := by
  by_cases hle : lo ≤ hi
  · induction hi, hle using Nat.le_induction with
    | base => rw [forRange_empty _ _ le_rfl, forRange_empty _ _ le_rfl]
    | succ n hn ih =>
      rw [forRange_succ_right _ _ hn, forRange_succ_right _ _ hn,
        ih fun i s h1 h2 => h i s h1 (by omega)]
      congr 1
      funext s'
      exact h n s' hn (by omega)
  · rw [forRange_empty _ _ (by omega), forRange_empty _ _ (by omega)]

/-- Accumulator loop. -/
theorem forRange_sum {M : Type*} [AddCommMonoid M] (n : ℕ) (a : M) (f : ℕ → M)
    (body : ℕ → M → Option M) (h : ∀ i < n, ∀ acc, body i acc = some (acc + f i)) :
    forRange 0 n a body = some (a + ∑ i ∈ Finset.range n, f i) := by
  have := forRange_eq n body (fun k => a + ∑ i ∈ Finset.range k, f i) (by
    intro i hi
    rw [h i hi, Finset.sum_range_succ, add_assoc])
  simpa using this

/-- State of a slice after its first `k` entries have been assigned. -/
def filled (k : ℕ) (g : ℕ → α) (l : List α) : List α := tab k g ++ l.drop k

@[simp] theorem filled_zero (g : ℕ → α) (l : List α) : filled 0 g l = l := by
  simp [filled, tab]

theorem length_filled (k : ℕ) (g : ℕ → α) (l : List α) (h : k ≤ l.length) :
    (filled k g l).length = l.length := by
  simp [filled]; omega

theorem filled_full (g : ℕ → α) (l : List α) : filled l.length g l = tab l.length g := by
  simp [filled]

theorem filled_full' (n : ℕ) (g : ℕ → α) (l : List α) (h : l.length = n) :
    filled n g l = tab n g := by
  subst h; exact filled_full g l

theorem filled_getElem? (k : ℕ) (g : ℕ → α) (l : List α) (_h : k ≤ l.length) (i : ℕ) :
    (filled k g l)[i]? = if i < k then some (g i) else l[i]? := by
  unfold filled
  split_ifs with hi
  · rw [List.getElem?_append_left (by simpa using hi), getElem?_tab, if_pos hi]
  · rw [List.getElem?_append_right (by simpa using hi)]
    simp only [length_tab, List.getElem?_drop]
    congr 1
    omega

theorem wr_filled (k : ℕ) (g : ℕ → α) (l : List α) (h : k < l.length) :
    wr (filled k g l) k (g k) = some (filled (k + 1) g l) := by
  rw [wr_eq _ _ _ (by rw [length_filled _ _ _ h.le]; exact h)]
  congr 1
  apply List.ext_getElem?
  intro i
  rw [List.getElem?_set, filled_getElem? k _ _ h.le, filled_getElem? (k + 1) _ _ h,
    length_filled _ _ _ h.le]
  by_cases h1 : k = i
  · subst h1; simp [h]
  · rw [if_neg h1]
    by_cases h2 : i < k
    · rw [if_pos h2, if_pos (by omega)]
    · rw [if_neg h2, if_neg (by omega)]

/-- Loop that assigns `g i` to entry `i`. -/
theorem forRange_fill (n : ℕ) (l : List α) (g : ℕ → α) (hn : n ≤ l.length)
    (body : ℕ → List α → Option (List α))
    (h : ∀ i < n, body i (filled i g l) = wr (filled i g l) i (g i)) :
    forRange 0 n l body = some (filled n g l) := by
  have := forRange_eq n body (fun k => filled k g l) (by
    intro i hi
    rw [h i hi, wr_filled i g l (by omega)])
  simpa using this

/-- A slice whose entries are assigned once, in any order that is an interval. -/
theorem forRange_fill_full (n : ℕ) (l : List α) (g : ℕ → α) (hn : l.length = n)
    (body : ℕ → List α → Option (List α))
    (h : ∀ i < n, ∀ r : List α, r.length = n → body i r = wr r i (g i)) :
    forRange 0 n l body = some (tab n g) := by
  rw [forRange_fill n l g hn.ge body (fun i hi => h i hi _ (by rw [length_filled _ _ _ (by omega)]; exact hn)),
    filled_full' n g l hn]

theorem forDown_succ (n : ℕ) (s : σ) (body : ℕ → σ → Option σ) :
    forDown (n + 1) s body = (body n s).bind fun s' => forDown n s' body := by
  simp only [forDown, List.range_succ, List.reverse_append, List.reverse_cons, List.reverse_nil,
    List.nil_append, List.cons_append, List.foldlM_cons]
  rfl

@[simp] theorem forDown_zero (s : σ) (body : ℕ → σ → Option σ) : forDown 0 s body = some s := by
  simp [forDown]

/-- A downward loop whose state on entry to the iteration with index `i` is `S (i+1)`. -/
theorem forDown_eq (n : ℕ) (body : ℕ → σ → Option σ) (S : ℕ → σ)
    (hstep : ∀ i < n, body i (S (i + 1)) = some (S i)) :
    forDown n (S n) body = some (S 0) := by
  induction n with
  | zero => simp
  | succ n ih =>
    rw [forDown_succ, hstep n (by omega)]
    exact ih fun i hi => hstep i (by omega)

@[simp] theorem length_mkSlice (n : ℕ) (z : α) : (mkSlice n z).length = n := by simp [mkSlice]

end GoTfhe
