import Verif.Spec.Buffers
import Verif.Lemmas.Prelude
import Mathlib.Data.List.Range
import Mathlib.Tactic.Ring
import Mathlib.Tactic.Linarith

namespace GoTfhe

/-- `c` makes exactly the slices that `refs` lists beyond `pre`, in this order. -/
def Makes {α : Type} (pre : List Buf) (c : Alloc α) (refs : α → List Buf) : Prop :=
  ∀ m a m', c m = some (a, m') → ∃ new, refs a = pre ++ new ∧
    new.map Buf.id = List.range' m.next new.length ∧ m'.next = m.next + new.length ∧
    m'.bytes = m.bytes + bytesOf new

theorem bytesOf_append (a b : List Buf) : bytesOf (a ++ b) = bytesOf a + bytesOf b := by
  simp [bytesOf]

theorem Makes.pure {α : Type} {pre : List Buf} {a : α} {refs : α → List Buf} (h : refs a = pre) :
    Makes pre (pure a : Alloc α) refs := by
  intro m b m' hb
  have : (a, m) = (b, m') := Option.some.inj hb
  cases this
  exact ⟨[], by simp [h], by simp, by simp, by simp [bytesOf]⟩

theorem bind_some {α β : Type} {c : Alloc α} {k : α → Alloc β} {m : Mem} {r : β × Mem}
    (h : (c >>= k) m = some r) : ∃ a m1, c m = some (a, m1) ∧ k a m1 = some r := by
  have h' : (c m).bind (fun p => k p.1 p.2) = some r := h
  obtain ⟨p, hp, hk⟩ := Option.bind_eq_some_iff.1 h'
  exact ⟨p.1, p.2, hp, hk⟩

theorem Makes.bind {α β : Type} {pre : List Buf} {c : Alloc α} {k : α → Alloc β}
    {r : α → List Buf} {refs : β → List Buf} (hc : Makes [] c r)
    (hk : ∀ a, Makes (pre ++ r a) (k a) refs) : Makes pre (c >>= k) refs := by
  intro m b m' h
  obtain ⟨a, m1, h1, h2⟩ := bind_some h
  obtain ⟨n1, e1, i1, x1, y1⟩ := hc m a m1 h1
  obtain ⟨n2, e2, i2, x2, y2⟩ := hk a m1 b m' h2
  have e1' : r a = n1 := by simpa using e1
  refine ⟨n1 ++ n2, by rw [e2, e1', List.append_assoc], ?_, ?_, ?_⟩
  · rw [List.map_append, i1, i2, x1, List.length_append, ← List.range'_append_1]
  · rw [x2, x1, List.length_append, Nat.add_assoc]
  · rw [y2, y1, bytesOf_append, Nat.add_assoc]

theorem makes_makeB (w : ℕ) (n : ℤ) : Makes [] (makeB w n) (fun b => [b]) := by
  intro m a m' h
  unfold makeB at h
  split at h
  · cases h
  · cases h
    exact ⟨[⟨m.next, n.toNat, w⟩], rfl, rfl, rfl, by simp [bytesOf]⟩

theorem makes_checkDegree (n : ℤ) : Makes [] (checkDegree n) (fun _ => []) := by
  intro m a m' h
  unfold checkDegree at h
  split at h
  · cases h
  · split at h
    · cases h
    · cases h
      exact ⟨[], rfl, rfl, rfl, rfl⟩

theorem makes_each {α : Type} {f : Alloc α} {r : α → List Buf} (h : Makes [] f r) :
    ∀ k, Makes [] (makeEach f k) (fun l => l.flatMap r)
  | 0 => Makes.pure rfl
  | k + 1 => by
    refine Makes.bind (makes_each h k) fun l => Makes.bind h fun a => Makes.pure ?_
    simp

theorem makes_newPolyB (n : ℤ) : Makes [] (newPolyB n) (fun b => [b]) :=
  Makes.bind (makes_checkDegree n) fun _ => makes_makeB 4 n

theorem makes_newFourierPolyB (n : ℤ) : Makes [] (newFourierPolyB n) (fun b => [b]) :=
  Makes.bind (makes_checkDegree n) fun _ => makes_makeB 8 n

theorem makes_newPairB (n : ℤ) : Makes [] (newPairB n) Buf2.bufs :=
  Makes.bind (makes_makeB 4 n) fun _ => Makes.bind (makes_makeB 4 n) fun _ => Makes.pure rfl

theorem makes_newFourierPairB (n : ℤ) : Makes [] (newFourierPairB n) Buf2.bufs :=
  Makes.bind (makes_newFourierPolyB n) fun _ => Makes.bind (makes_newFourierPolyB n) fun _ =>
    Makes.pure rfl

theorem makes_newLevelB (n : ℤ) : Makes [] (newLevelB n) levelBufs :=
  Makes.bind (makes_newPolyB n) fun _ => Makes.bind (makes_newFourierPolyB n) fun _ => Makes.pure rfl

theorem makes_newBufferManager (P : Params) (n : ℤ) :
    Makes [] (newBufferManager P n) BufferManager.bufs := by
  unfold newBufferManager
  refine Makes.bind (makes_newPolyB n) fun _ => Makes.bind (makes_newFourierPolyB n) fun _ => ?_
  refine Makes.bind (makes_each (makes_newLevelB n) _) fun _ => ?_
  refine Makes.bind (makes_newFourierPolyB n) fun _ => Makes.bind (makes_newFourierPolyB n) fun _ =>
    Makes.bind (makes_newFourierPolyB n) fun _ => ?_
  refine Makes.bind (makes_each (makes_newPolyB n) _) fun _ => ?_
  refine Makes.bind (makes_each (makes_newPairB n) _) fun _ => ?_
  refine Makes.bind (makes_newPolyB n) fun _ => Makes.bind (makes_newPolyB n) fun _ =>
    Makes.bind (makes_newPolyB n) fun _ => Makes.pure ?_
  simp [BufferManager.bufs]

theorem makes_newBlockRotationBuffers (P : Params) (n : ℤ) :
    Makes [] (newBlockRotationBuffers P n) BlockRotationBuffers.bufs := by
  unfold newBlockRotationBuffers
  refine Makes.bind (makes_each (makes_each (makes_each (makes_newFourierPolyB n) _) _) _) fun _ => ?_
  refine Makes.bind (makes_each (makes_newFourierPairB n) _) fun _ => ?_
  refine Makes.bind (makes_each (makes_newFourierPairB n) _) fun _ => ?_
  refine Makes.bind (makes_newFourierPolyB n) fun _ => Makes.pure ?_
  simp only [BlockRotationBuffers.bufs, List.nil_append, List.flatMap_singleton',
    List.flatten_flatten]
  simp [List.flatMap]

theorem makes_newBlockRotation (P : Params) (n : ℤ) :
    Makes [] (newBlockRotation P n) blockBufs := by
  unfold newBlockRotation
  split
  · exact Makes.bind (makes_newBlockRotationBuffers P n) fun _ => Makes.pure rfl
  · exact Makes.pure rfl

theorem makes_newBufferPool (P : Params) (n : ℤ) :
    Makes [] (newBufferPool P n) BufferPool.bufs := by
  unfold newBufferPool
  refine Makes.bind (makes_newBufferManager P n) fun _ => ?_
  refine Makes.bind (makes_newFourierPolyB n) fun _ => Makes.bind (makes_newFourierPolyB n) fun _ => ?_
  refine Makes.bind (makes_newPairB _) fun _ => Makes.bind (makes_newPairB _) fun _ =>
    Makes.bind (makes_newPairB _) fun _ => Makes.bind (makes_newPairB _) fun _ =>
    Makes.bind (makes_newPairB _) fun _ => ?_
  refine Makes.bind (makes_makeB _ _) fun _ => Makes.bind (makes_makeB _ _) fun _ =>
    Makes.bind (makes_makeB _ _) fun _ => Makes.bind (makes_each (makes_makeB _ _) _) fun _ => ?_
  refine Makes.bind (makes_newBlockRotation P n) fun _ => Makes.pure ?_
  simp [BufferPool.bufs]

theorem makes_newEvaluationBuffer (n : ℤ) :
    Makes [] (newEvaluationBuffer n) EvaluationBuffer.bufs := by
  unfold newEvaluationBuffer
  refine Makes.bind (makes_each (makes_newLevelB n) _) fun _ => ?_
  refine Makes.bind (makes_each (makes_newPolyB n) _) fun _ => ?_
  refine Makes.bind (makes_each (makes_newPairB n) _) fun _ => ?_
  refine Makes.bind (makes_newFourierPolyB n) fun _ => Makes.bind (makes_newFourierPolyB n) fun _ =>
    Makes.bind (makes_newPolyB n) fun _ => Makes.bind (makes_newFourierPolyB n) fun _ =>
    Makes.bind (makes_newFourierPolyB n) fun _ => Makes.bind (makes_newFourierPolyB n) fun _ =>
    Makes.bind (makes_newFourierPolyB n) fun _ => Makes.bind (makes_newFourierPolyB n) fun _ =>
    Makes.bind (makes_newPolyB n) fun _ => Makes.bind (makes_newPolyB n) fun _ =>
    Makes.bind (makes_newPolyB n) fun _ => Makes.pure ?_
  simp [EvaluationBuffer.bufs]

theorem makes_newPolyEvaluatorB (n : ℤ) :
    Makes [] (newPolyEvaluatorB n) (fun e => e.tables.bufs ++ e.buffer.bufs) := by
  unfold newPolyEvaluatorB
  refine Makes.bind (makes_checkDegree n) fun _ => ?_
  refine Makes.bind (makes_makeB _ _) fun _ => Makes.bind (makes_makeB _ _) fun _ =>
    Makes.bind (makes_makeB _ _) fun _ => Makes.bind (makes_makeB _ _) fun _ => ?_
  refine Makes.bind (makes_newEvaluationBuffer n) fun _ => Makes.pure ?_
  simp [Tables.bufs]

theorem makes_newEvaluatorB (P : Params) (n : ℤ) :
    Makes [] (newEvaluatorB P n) (fun e => e.polyEvaluator.tables.bufs ++ e.scratch) := by
  unfold newEvaluatorB
  refine Makes.bind (makes_newPolyEvaluatorB n) fun _ => ?_
  refine Makes.bind (makes_each (makes_newLevelB n) _) fun _ => ?_
  refine Makes.bind (makes_newBufferPool P n) fun _ => Makes.pure ?_
  simp [EvaluatorB.scratch]

theorem makes_getPolyDecomposedBufferB (d : List (Buf × Buf)) (level : ℕ) :
    Makes [] (getPolyDecomposedBufferB d level) (fun _ => []) := by
  intro m a m' h
  unfold getPolyDecomposedBufferB at h
  split at h
  · cases h
  · cases h
    exact ⟨[], rfl, rfl, rfl, rfl⟩

theorem makes_shallowCopy (P : Params) (e : EvaluatorB) :
    Makes [] (e.shallowCopy P) EvaluatorB.scratch := by
  unfold EvaluatorB.shallowCopy
  have h1 : Makes [] e.polyEvaluator.shallowCopy (fun e => e.buffer.bufs) :=
    Makes.bind (makes_newEvaluationBuffer _) fun _ => Makes.pure rfl
  refine Makes.bind h1 fun _ => ?_
  refine Makes.bind (makes_getPolyDecomposedBufferB _ _) fun _ => ?_
  refine Makes.bind (makes_each (makes_newLevelB _) _) fun _ => ?_
  refine Makes.bind (makes_newBufferPool P _) fun _ => Makes.pure ?_
  simp [EvaluatorB.scratch]

/-- All slices made by `c` are new and different. -/
theorem Makes.ids {α : Type} {c : Alloc α} {refs : α → List Buf} (h : Makes [] c refs) {m m' : Mem}
    {a : α} (hc : c m = some (a, m')) :
    ((refs a).map Buf.id).Nodup ∧ (∀ b ∈ refs a, m.next ≤ b.id ∧ b.id < m'.next) ∧
      m'.next = m.next + (refs a).length ∧ m'.bytes = m.bytes + bytesOf (refs a) := by
  obtain ⟨new, e, i, x, y⟩ := h m a m' hc
  rw [List.nil_append] at e
  rw [e]
  refine ⟨by rw [i]; exact List.nodup_range', fun b hb => ?_, x, y⟩
  have : b.id ∈ new.map Buf.id := List.mem_map_of_mem hb
  rw [i, List.mem_range'_1] at this
  omega

/-- `c` panics in no memory. -/
def Total {α : Type} (c : Alloc α) : Prop := ∀ m, ∃ r, c m = some r

theorem Total.pure {α : Type} (a : α) : Total (Pure.pure a : Alloc α) := fun m => ⟨(a, m), rfl⟩

theorem Total.bind {α β : Type} {c : Alloc α} {k : α → Alloc β} (hc : Total c)
    (hk : ∀ a, Total (k a)) : Total (c >>= k) := by
  intro m
  obtain ⟨⟨a, m1⟩, h1⟩ := hc m
  obtain ⟨r, h2⟩ := hk a m1
  refine ⟨r, ?_⟩
  change (c m).bind (fun p => k p.1 p.2) = some r
  rw [h1]
  exact h2

theorem Total.each {α : Type} {f : Alloc α} (h : Total f) : ∀ k, Total (makeEach f k)
  | 0 => Total.pure _
  | k + 1 => Total.bind (Total.each h k) fun _ => Total.bind h fun _ => Total.pure _

/-- The degrees that the constructors accept. -/
def DegreeOK (n : ℤ) : Prop := isPowerOfTwo n = true ∧ minDegree ≤ n

theorem total_makeB (w : ℕ) {n : ℤ} (h : 0 ≤ n) : Total (makeB w n) := by
  intro m
  unfold makeB
  rw [if_neg (by omega)]
  exact ⟨_, rfl⟩

theorem total_checkDegree {n : ℤ} (h : DegreeOK n) : Total (checkDegree n) := by
  intro m
  unfold checkDegree
  rw [if_neg (by rw [h.1]; decide), if_neg (by have := h.2; omega)]
  exact ⟨_, rfl⟩

theorem checkDegree_none {n : ℤ} (h : ¬ DegreeOK n) (m : Mem) : checkDegree n m = none := by
  unfold checkDegree
  split
  · rfl
  · rename_i h1
    rw [if_pos]
    by_contra h2
    exact h ⟨by simpa using h1, by omega⟩

theorem DegreeOK.ge {n : ℤ} (h : DegreeOK n) : 16 ≤ n := h.2

theorem total_newPolyB {n : ℤ} (h : DegreeOK n) : Total (newPolyB n) :=
  Total.bind (total_checkDegree h) fun _ => total_makeB 4 (by have := h.ge; omega)

theorem total_newFourierPolyB {n : ℤ} (h : DegreeOK n) : Total (newFourierPolyB n) :=
  Total.bind (total_checkDegree h) fun _ => total_makeB 8 (by have := h.ge; omega)

theorem total_newPairB {n : ℤ} (h : 0 ≤ n) : Total (newPairB n) :=
  Total.bind (total_makeB 4 h) fun _ => Total.bind (total_makeB 4 h) fun _ => Total.pure _

theorem total_newFourierPairB {n : ℤ} (h : DegreeOK n) : Total (newFourierPairB n) :=
  Total.bind (total_newFourierPolyB h) fun _ => Total.bind (total_newFourierPolyB h) fun _ =>
    Total.pure _

theorem total_newLevelB {n : ℤ} (h : DegreeOK n) : Total (newLevelB n) :=
  Total.bind (total_newPolyB h) fun _ => Total.bind (total_newFourierPolyB h) fun _ => Total.pure _

theorem total_newBufferManager (P : Params) {n : ℤ} (h : DegreeOK n) :
    Total (newBufferManager P n) := by
  have hp := total_newPolyB h
  have hf := total_newFourierPolyB h
  have h0 : 0 ≤ n := by have := h.ge; omega
  exact Total.bind hp fun _ => Total.bind hf fun _ => Total.bind (Total.each (total_newLevelB h) _)
    fun _ => Total.bind hf fun _ => Total.bind hf fun _ => Total.bind hf fun _ =>
    Total.bind (Total.each hp _) fun _ => Total.bind (Total.each (total_newPairB h0) _) fun _ =>
    Total.bind hp fun _ => Total.bind hp fun _ => Total.bind hp fun _ => Total.pure _

theorem total_newBlockRotationBuffers (P : Params) {n : ℤ} (h : DegreeOK n) :
    Total (newBlockRotationBuffers P n) := by
  have hf := total_newFourierPolyB h
  have h2 := total_newFourierPairB h
  exact Total.bind (Total.each (Total.each (Total.each hf _) _) _) fun _ =>
    Total.bind (Total.each h2 _) fun _ => Total.bind (Total.each h2 _) fun _ =>
    Total.bind hf fun _ => Total.pure _

theorem total_newBlockRotation (P : Params) {n : ℤ} (h : DegreeOK n) :
    Total (newBlockRotation P n) := by
  unfold newBlockRotation
  split
  · exact Total.bind (total_newBlockRotationBuffers P h) fun _ => Total.pure _
  · exact Total.pure _

theorem total_newBufferPool (P : Params) {n : ℤ} (h : DegreeOK n) : Total (newBufferPool P n) := by
  have hf := total_newFourierPolyB h
  have ht : Total (newTRLWELv1B P) := total_newPairB (by positivity)
  have h1 : Total (newTLWELv1B P) := total_makeB _ (by positivity)
  have h0 : Total (newTLWELv0B P) := total_makeB _ (by positivity)
  exact Total.bind (total_newBufferManager P h) fun _ => Total.bind hf fun _ => Total.bind hf fun _ =>
    Total.bind ht fun _ => Total.bind ht fun _ => Total.bind ht fun _ => Total.bind ht fun _ =>
    Total.bind ht fun _ => Total.bind h1 fun _ => Total.bind h0 fun _ => Total.bind h0 fun _ =>
    Total.bind (Total.each h0 _) fun _ => Total.bind (total_newBlockRotation P h) fun _ =>
    Total.pure _

theorem total_newEvaluationBuffer {n : ℤ} (h : DegreeOK n) : Total (newEvaluationBuffer n) := by
  have hp := total_newPolyB h
  have hf := total_newFourierPolyB h
  have h0 : 0 ≤ n := by have := h.ge; omega
  exact Total.bind (Total.each (total_newLevelB h) _) fun _ => Total.bind (Total.each hp _) fun _ =>
    Total.bind (Total.each (total_newPairB h0) _) fun _ => Total.bind hf fun _ =>
    Total.bind hf fun _ => Total.bind hp fun _ => Total.bind hf fun _ => Total.bind hf fun _ =>
    Total.bind hf fun _ => Total.bind hf fun _ => Total.bind hf fun _ => Total.bind hp fun _ =>
    Total.bind hp fun _ => Total.bind hp fun _ => Total.pure _

theorem total_newEvaluatorB (P : Params) {n : ℤ} (h : DegreeOK n) : Total (newEvaluatorB P n) := by
  have h0 := h.ge
  have hp : Total (newPolyEvaluatorB n) :=
    Total.bind (total_checkDegree h) fun _ => Total.bind (total_makeB _ (by omega)) fun _ =>
      Total.bind (total_makeB _ (by omega)) fun _ => Total.bind (total_makeB _ (by omega)) fun _ =>
      Total.bind (total_makeB _ (by omega)) fun _ => Total.bind (total_newEvaluationBuffer h) fun _ =>
      Total.pure _
  exact Total.bind hp fun _ => Total.bind (Total.each (total_newLevelB h) _) fun _ =>
    Total.bind (total_newBufferPool P h) fun _ => Total.pure _

/-- Every result of `c` satisfies `p`. -/
def Ensures {α : Type} (c : Alloc α) (p : α → Prop) : Prop := ∀ m a m', c m = some (a, m') → p a

theorem Ensures.pure {α : Type} {a : α} {p : α → Prop} (h : p a) :
    Ensures (Pure.pure a : Alloc α) p := by
  intro m b m' hb
  have : (a, m) = (b, m') := Option.some.inj hb
  cases this
  exact h

theorem Ensures.bind {α β : Type} {c : Alloc α} {k : α → Alloc β} {p : α → Prop} {q : β → Prop}
    (hc : Ensures c p) (hk : ∀ a, p a → Ensures (k a) q) : Ensures (c >>= k) q := by
  intro m b m' h
  obtain ⟨a, m1, h1, h2⟩ := bind_some h
  exact hk a (hc m a m1 h1) m1 b m' h2

theorem Ensures.each {α : Type} {f : Alloc α} {p : α → Prop} (h : Ensures f p) :
    ∀ k, Ensures (makeEach f k) (fun l => l.length = k ∧ ∀ a ∈ l, p a)
  | 0 => Ensures.pure (by simp)
  | k + 1 => Ensures.bind (Ensures.each h k) fun l hl => Ensures.bind h fun a ha => Ensures.pure (by
      refine ⟨by simp [hl.1], fun b hb => ?_⟩
      rcases List.mem_append.1 hb with h1 | h1
      · exact hl.2 b h1
      · rw [List.mem_singleton.1 h1]; exact ha)

/-- A slice of `n` elements of `w` bytes. -/
def Buf.Is (w n : ℕ) (b : Buf) : Prop := b.width = w ∧ b.len = n

theorem ensures_makeB (w : ℕ) (n : ℤ) : Ensures (makeB w n) (Buf.Is w n.toNat) := by
  intro m a m' h
  unfold makeB at h
  split at h
  · cases h
  · cases h; exact ⟨rfl, rfl⟩

theorem ensures_checkDegree (n : ℤ) : Ensures (checkDegree n) (fun _ => DegreeOK n) := by
  intro m a m' h
  by_contra hn
  rw [checkDegree_none hn] at h
  cases h

theorem ensures_newPolyB (n : ℤ) : Ensures (newPolyB n) (Buf.Is 4 n.toNat) :=
  Ensures.bind (ensures_checkDegree n) fun _ _ => ensures_makeB 4 n

theorem ensures_newFourierPolyB (n : ℤ) : Ensures (newFourierPolyB n) (Buf.Is 8 n.toNat) :=
  Ensures.bind (ensures_checkDegree n) fun _ _ => ensures_makeB 8 n

/-- Two slices of `n` elements of `w` bytes. -/
def Buf2.Is (w n : ℕ) (b : Buf2) : Prop := b.A.Is w n ∧ b.B.Is w n

theorem ensures_newPairB (n : ℤ) : Ensures (newPairB n) (Buf2.Is 4 n.toNat) :=
  Ensures.bind (ensures_makeB 4 n) fun _ h1 => Ensures.bind (ensures_makeB 4 n) fun _ h2 =>
    Ensures.pure ⟨h1, h2⟩

theorem ensures_newFourierPairB (n : ℤ) : Ensures (newFourierPairB n) (Buf2.Is 8 n.toNat) :=
  Ensures.bind (ensures_newFourierPolyB n) fun _ h1 => Ensures.bind (ensures_newFourierPolyB n)
    fun _ h2 => Ensures.pure ⟨h1, h2⟩

/-- A level of a decomposition buffer for polynomials of degree `n`. -/
def IsLevel (n : ℕ) (b : Buf × Buf) : Prop := b.1.Is 4 n ∧ b.2.Is 8 n

theorem ensures_newLevelB (n : ℤ) : Ensures (newLevelB n) (IsLevel n.toNat) :=
  Ensures.bind (ensures_newPolyB n) fun _ h1 => Ensures.bind (ensures_newFourierPolyB n)
    fun _ h2 => Ensures.pure ⟨h1, h2⟩

end GoTfhe
