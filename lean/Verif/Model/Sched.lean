import Verif.Model.Prelude

/-!
# Goroutines writing one shared slice

A goroutine is the list of the writes it still has to make, in program order. A write is an index and the
value it stores; the value is `none` if computing it panics. A schedule is the list of the goroutines that
take the next step; naming a goroutine that has finished does nothing. The runtime may use any schedule.
-/

namespace GoTfhe

/-- One pending write of a goroutine. -/
structure Write (α : Type) where
  idx : ℕ
  val : Option α

/-- Perform one write. A panic in a goroutine ends the program, so it is a panic of the whole. -/
def Write.exec {α : Type} (w : Write α) (mem : List α) : Option (List α) := do
  let v ← w.val
  wr mem w.idx v

/-- Goroutine `t` takes one step. -/
def schedStep {α : Type} (ths : List (List (Write α))) (mem : List α) (t : ℕ) :
    Option (List (List (Write α)) × List α) :=
  match ths[t]? with
  | some (w :: rest) => do
    let mem ← w.exec mem
    pure (ths.set t rest, mem)
  | _ => some (ths, mem)

/-- Run a schedule. -/
def runSched {α : Type} : List (List (Write α)) → List α → List ℕ →
    Option (List (List (Write α)) × List α)
  | ths, mem, [] => some (ths, mem)
  | ths, mem, t :: sched =>
    match schedStep ths mem t with
    | none => none
    | some (ths, mem) => runSched ths mem sched

/-- All goroutines have called `wg.Done()`, so `wg.Wait()` returns. -/
def allDone {α : Type} (ths : List (List (Write α))) : Bool := ths.all List.isEmpty

end GoTfhe
