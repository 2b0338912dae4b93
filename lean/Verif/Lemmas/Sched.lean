import Verif.Model.Sched
import Verif.Lemmas.Prelude

/-!
# Runs of goroutines that agree on what is written where
-/

namespace GoTfhe

variable {α : Type}

/-- Every pending write stores `f idx` at `idx`, within bounds. -/
def Agree (f : ℕ → α) (n : ℕ) (ths : List (List (Write α))) : Prop :=
  ∀ th ∈ ths, ∀ w ∈ th, w.val = some (f w.idx) ∧ w.idx < n

/-- Index `x` is still to be written. -/
def Pending (ths : List (List (Write α))) (x : ℕ) : Prop := ∃ th ∈ ths, ∃ w ∈ th, w.idx = x

/-- What holds after any part of a run from `ths0`, `mem0`. -/
structure SchedInv (f : ℕ → α) (ths0 : List (List (Write α))) (mem0 : List α)
    (ths : List (List (Write α))) (mem : List α) : Prop where
  len : mem.length = mem0.length
  agree : Agree f mem0.length ths
  sub : ∀ x, Pending ths x → Pending ths0 x
  written : ∀ x, Pending ths0 x → Pending ths x ∨ mem[x]? = some (f x)
  rest : ∀ x, ¬ Pending ths0 x → mem[x]? = mem0[x]?

theorem schedStep_inv {f : ℕ → α} {ths0 : List (List (Write α))} {mem0 : List α}
    {ths : List (List (Write α))} {mem : List α} (h : SchedInv f ths0 mem0 ths mem) (t : ℕ) :
    ∃ ths' mem', schedStep ths mem t = some (ths', mem') ∧ SchedInv f ths0 mem0 ths' mem' := by
  unfold schedStep
  cases e : ths[t]? with
  | none => exact ⟨ths, mem, rfl, h⟩
  | some th =>
    cases th with
    | nil => exact ⟨ths, mem, rfl, h⟩
    | cons w rest =>
      have hmem : (w :: rest) ∈ ths := List.mem_of_getElem? e
      obtain ⟨hv, hi⟩ := h.agree _ hmem w List.mem_cons_self
      have htl : t < ths.length := by
        by_contra hc
        rw [List.getElem?_eq_none (by omega)] at e
        simp at e
      have hw : w.exec mem = some (mem.set w.idx (f w.idx)) := by
        unfold Write.exec
        rw [hv]
        simp only [Option.bind_eq_bind, Option.bind_some]
        exact wr_eq _ _ _ (by rw [h.len]; exact hi)
      simp only [hw, Option.bind_eq_bind, Option.bind_some]
      have hpend : ∀ x, Pending (ths.set t rest) x → Pending ths x := by
        rintro x ⟨th, hth, v, hv', hx⟩
        rcases List.mem_or_eq_of_mem_set hth with h1 | h1
        · exact ⟨th, h1, v, hv', hx⟩
        · subst h1
          exact ⟨_, hmem, v, List.mem_cons_of_mem _ hv', hx⟩
      have hback : ∀ x, Pending ths x → Pending (ths.set t rest) x ∨ x = w.idx := by
        rintro x ⟨th, hth, v, hv', hx⟩
        obtain ⟨j, hj, rfl⟩ := List.getElem_of_mem hth
        by_cases hjt : j = t
        · subst hjt
          have e' : ths[j] = w :: rest := by
            rw [List.getElem?_eq_getElem hj] at e
            exact Option.some.inj e
          rw [e'] at hv'
          rcases List.mem_cons.1 hv' with rfl | hv'
          · exact Or.inr hx.symm
          · refine Or.inl ⟨rest, ?_, v, hv', hx⟩
            exact List.mem_iff_getElem.2 ⟨j, by simpa using hj, by simp⟩
        · refine Or.inl ⟨ths[j], ?_, v, hv', hx⟩
          exact List.mem_iff_getElem.2 ⟨j, by simpa using hj, by simp [Ne.symm hjt]⟩
      refine ⟨_, _, rfl, ⟨by rw [List.length_set, h.len], ?_, fun x hx => h.sub x (hpend x hx), ?_, ?_⟩⟩
      · intro th hth v hv'
        rcases List.mem_or_eq_of_mem_set hth with h1 | h1
        · exact h.agree th h1 v hv'
        · subst h1
          exact h.agree _ hmem v (List.mem_cons_of_mem _ hv')
      · intro x hx
        by_cases hxw : x = w.idx
        · right
          subst hxw
          rw [List.getElem?_set_self (by rw [h.len]; exact hi)]
        · rcases h.written x hx with h1 | h1
          · rcases hback x h1 with h2 | h2
            · exact Or.inl h2
            · exact absurd h2 hxw
          · right
            rw [List.getElem?_set_ne (Ne.symm hxw), h1]
      · intro x hx
        have hxw : w.idx ≠ x := by
          rintro rfl
          exact hx (h.sub _ ⟨_, hmem, w, List.mem_cons_self, rfl⟩)
        rw [List.getElem?_set_ne hxw, h.rest x hx]

theorem runSched_inv {f : ℕ → α} {ths0 : List (List (Write α))} {mem0 : List α} (sched : List ℕ) :
    ∀ {ths : List (List (Write α))} {mem : List α}, SchedInv f ths0 mem0 ths mem →
    ∃ ths' mem', runSched ths mem sched = some (ths', mem') ∧ SchedInv f ths0 mem0 ths' mem' := by
  induction sched with
  | nil => intro ths mem h; exact ⟨ths, mem, rfl, h⟩
  | cons t sched ih =>
    intro ths mem h
    obtain ⟨ths1, mem1, e, h1⟩ := schedStep_inv h t
    obtain ⟨ths2, mem2, e2, h2⟩ := ih h1
    exact ⟨ths2, mem2, by rw [runSched, e]; exact e2, h2⟩

theorem schedInv_init {f : ℕ → α} {ths : List (List (Write α))} {mem : List α}
    (h : Agree f mem.length ths) : SchedInv f ths mem ths mem :=
  ⟨rfl, h, fun _ h => h, fun _ h => Or.inl h, fun _ _ => rfl⟩

theorem not_pending_of_allDone {ths : List (List (Write α))} (h : allDone ths = true) (x : ℕ) :
    ¬ Pending ths x := by
  rintro ⟨th, hth, w, hw, -⟩
  have := List.all_eq_true.1 h th hth
  rw [List.isEmpty_iff] at this
  rw [this] at hw
  simp at hw

/-- No schedule panics, and every complete schedule leaves `f x` at the written indices and the initial
value everywhere else. -/
theorem runSched_spec {f : ℕ → α} {ths : List (List (Write α))} {mem : List α}
    (h : Agree f mem.length ths) (sched : List ℕ) :
    ∃ ths' mem', runSched ths mem sched = some (ths', mem') ∧ mem'.length = mem.length ∧
      (allDone ths' = true → (∀ x, Pending ths x → mem'[x]? = some (f x)) ∧
        ∀ x, ¬ Pending ths x → mem'[x]? = mem[x]?) := by
  obtain ⟨ths', mem', e, hi⟩ := runSched_inv sched (schedInv_init h)
  exact ⟨ths', mem', e, hi.len, fun hd => ⟨fun x hx =>
    (hi.written x hx).resolve_left (not_pending_of_allDone hd x), hi.rest⟩⟩

theorem runSched_append (s1 s2 : List ℕ) : ∀ (ths : List (List (Write α))) (mem : List α),
    runSched ths mem (s1 ++ s2) = (runSched ths mem s1).bind fun p => runSched p.1 p.2 s2 := by
  induction s1 with
  | nil => intro ths mem; rfl
  | cons t s1 ih =>
    intro ths mem
    rw [List.cons_append, runSched, runSched]
    cases schedStep ths mem t with
    | none => rfl
    | some p => exact ih p.1 p.2

theorem length_le_sum (ths : List (List α)) (th : List α) (h : th ∈ ths) :
    th.length ≤ (ths.map List.length).sum := by
  induction ths with
  | nil => simp at h
  | cons a ths ih =>
    rw [List.map_cons, List.sum_cons]
    rcases List.mem_cons.1 h with rfl | h
    · omega
    · have := ih h; omega

/-- From every reachable state the goroutines can finish. -/
theorem runSched_finish {f : ℕ → α} {n : ℕ} : ∀ (k : ℕ) (ths : List (List (Write α))) (mem : List α),
    (ths.map List.length).sum = k → mem.length = n → Agree f n ths →
    ∃ sched ths' mem', runSched ths mem sched = some (ths', mem') ∧ allDone ths' = true := by
  intro k
  induction k with
  | zero =>
    intro ths mem hk _ _
    refine ⟨[], ths, mem, rfl, ?_⟩
    apply List.all_eq_true.2
    intro th hth
    have h0 : th.length = 0 := by
      have := length_le_sum ths th hth
      omega
    simpa using h0
  | succ k ih =>
    intro ths mem hk hn ha
    have : ∃ th ∈ ths, th ≠ [] := by
      by_contra hc
      push Not at hc
      have : (ths.map List.length).sum = 0 := by
        apply List.sum_eq_zero
        intro x hx
        obtain ⟨th, hth, rfl⟩ := List.mem_map.1 hx
        rw [hc th hth]; rfl
      omega
    obtain ⟨th, hth, hne⟩ := this
    obtain ⟨t, ht, rfl⟩ := List.getElem_of_mem hth
    obtain ⟨w, rest, e⟩ := List.exists_cons_of_ne_nil hne
    obtain ⟨hv, hi⟩ := ha _ hth w (by rw [e]; exact List.mem_cons_self)
    have hstep : schedStep ths mem t = some (ths.set t rest, mem.set w.idx (f w.idx)) := by
      unfold schedStep
      rw [List.getElem?_eq_getElem ht, e]
      simp only [Write.exec, hv, Option.bind_eq_bind, Option.bind_some]
      rw [wr_eq _ _ _ (by rw [hn]; exact hi)]
      rfl
    obtain ⟨sched, ths', mem', e', hd⟩ := ih (ths.set t rest) (mem.set w.idx (f w.idx)) (by
        rw [List.map_set]
        have h1 := List.sum_set (ths.map List.length) t rest.length
        have h2 := List.sum_set (ths.map List.length) t (ths[t]).length
        have h3 : (ths.map List.length).set t (ths[t]).length = ths.map List.length := by
          apply List.ext_getElem (by simp)
          intro i h1 h2
          rw [List.getElem_set]
          split_ifs with hit
          · subst hit; simp
          · rfl
        rw [h3] at h2
        rw [if_pos (by simpa using ht)] at h1 h2
        have h4 : (ths[t]).length = rest.length + 1 := by rw [e]; rfl
        omega) (by rw [List.length_set]; exact hn) (by
        intro th hth v hv'
        rcases List.mem_or_eq_of_mem_set hth with h1 | h1
        · exact ha th h1 v hv'
        · subst h1
          exact ha _ (List.getElem_mem ht) v (by rw [e]; exact List.mem_cons_of_mem _ hv'))
    exact ⟨t :: sched, ths', mem', by rw [runSched, hstep]; exact e', hd⟩

end GoTfhe
