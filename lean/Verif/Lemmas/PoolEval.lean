import Verif.Lemmas.Evaluator
import Verif.Model.PoolEval

/-!
# Blind rotation on pooled buffers computes the same pure function
-/

namespace GoTfhe

variable {O : FourierOps}

/-- The pooled buffers have the right sizes. -/
structure PEGood (P : Params) (L : FourierLaws O) (st : PEState O) : Prop where
  dec_len : P.trgswLv1.L * 2 ≤ st.decompBuf.length
  dec_row : ∀ row ∈ st.decompBuf, row.length = P.trgswLv1.N
  four_len : P.trgswLv1.L * 2 ≤ st.decompFFT.length
  four_ok : ∀ f ∈ st.decompFFT, L.ok f
  okA : L.ok st.fpAcc
  okB : L.ok st.fpBcc
  rot_len : ∀ i < 4, (st.mem (.rot i)).length = P.trgswLv1.N
  trA_len : ∀ i < 4, (st.mem (.trA i)).length = P.trgswLv1.N
  trB_len : ∀ i < 4, (st.mem (.trB i)).length = P.trgswLv1.N
  rot_lt : st.rotIdx < 4
  tr_lt : st.trIdx < 4

namespace PEState

@[simp] theorem set_mem (st : PEState O) (r : PRef) (l : List Torus) : (st.set r l).mem r = l := by
  simp [PEState.set]
theorem set_mem_ne (st : PEState O) (r r' : PRef) (l : List Torus) (h : r' ≠ r) :
    (st.set r l).mem r' = st.mem r' := by simp [PEState.set, h]
@[simp] theorem set_rotIdx (st : PEState O) (r : PRef) (l : List Torus) :
    (st.set r l).rotIdx = st.rotIdx := rfl
@[simp] theorem set_trIdx (st : PEState O) (r : PRef) (l : List Torus) :
    (st.set r l).trIdx = st.trIdx := rfl
@[simp] theorem set_set (st : PEState O) (r : PRef) (l l' : List Torus) :
    (st.set r l).set r l' = st.set r l' := by simp [PEState.set]

/-- Write two slices. -/
def set2 (st : PEState O) (x : PRef × PRef) (A B : List Torus) : PEState O := (st.set x.1 A).set x.2 B

theorem set2_fst (st : PEState O) (x : PRef × PRef) (A B : List Torus) (h : x.1 ≠ x.2) :
    (st.set2 x A B).mem x.1 = A := by
  unfold set2; rw [set_mem_ne _ _ _ _ h, set_mem]
theorem set2_snd (st : PEState O) (x : PRef × PRef) (A B : List Torus) :
    (st.set2 x A B).mem x.2 = B := by
  unfold set2; rw [set_mem]
theorem set2_ne (st : PEState O) (x : PRef × PRef) (A B : List Torus) (r : PRef) (h1 : r ≠ x.1)
    (h2 : r ≠ x.2) : (st.set2 x A B).mem r = st.mem r := by
  unfold set2; rw [set_mem_ne _ _ _ _ h2, set_mem_ne _ _ _ _ h1]
theorem set2_wr1 (st : PEState O) (x : PRef × PRef) (A B : List Torus) (h : x.1 ≠ x.2) (i : ℕ)
    (v : Torus) (hA : i < A.length) :
    (st.set2 x A B).wr1 x.1 i v = some (st.set2 x (A.set i v) B) := by
  unfold wr1
  rw [set2_fst _ _ _ _ h, wr_eq _ _ _ hA]
  simp only [Option.bind_eq_bind, Option.bind_some, Option.pure_def, set2, PEState.set]
  congr 2
  rw [Function.update_comm h, Function.update_idem, Function.update_comm h.symm]
theorem set2_wr2 (st : PEState O) (x : PRef × PRef) (A B : List Torus) (i : ℕ)
    (v : Torus) (hB : i < B.length) :
    (st.set2 x A B).wr1 x.2 i v = some (st.set2 x A (B.set i v)) := by
  unfold wr1
  rw [set2_snd, wr_eq _ _ _ hB]
  simp only [Option.bind_eq_bind, Option.bind_some, Option.pure_def, set2, set_set]

end PEState

open PEState

theorem PEGood.set {P : Params} {L : FourierLaws O} {st : PEState O} (h : PEGood P L st) (r : PRef)
    (l : List Torus) (hl : l.length = P.trgswLv1.N) : PEGood P L (st.set r l) := by
  refine ⟨h.dec_len, h.dec_row, h.four_len, h.four_ok, h.okA, h.okB, ?_, ?_, ?_, h.rot_lt, h.tr_lt⟩
  · intro i hi
    by_cases e : PRef.rot i = r
    · subst e; simpa using hl
    · rw [set_mem_ne _ _ _ _ e]; exact h.rot_len i hi
  · intro i hi
    by_cases e : PRef.trA i = r
    · subst e; simpa using hl
    · rw [set_mem_ne _ _ _ _ e]; exact h.trA_len i hi
  · intro i hi
    by_cases e : PRef.trB i = r
    · subst e; simpa using hl
    · rw [set_mem_ne _ _ _ _ e]; exact h.trB_len i hi

theorem PEGood.set2 {P : Params} {L : FourierLaws O} {st : PEState O} (h : PEGood P L st)
    (x : PRef × PRef) (A B : List Torus) (hA : A.length = P.trgswLv1.N) (hB : B.length = P.trgswLv1.N) :
    PEGood P L (st.set2 x A B) := (h.set _ _ hA).set _ _ hB

theorem polyMulWithXKPooled_eq {P : Params} (L : FourierLaws O) (hN : 1 ≤ P.trgswLv1.N) (st : PEState O)
    (hg : PEGood P L st) (a : PRef) (k : ℤ) (ha : a ≠ .rot st.rotIdx)
    (hl : (st.mem a).length = P.trgswLv1.N) :
    ∃ st', polyMulWithXKPooled st a k = some (st', .rot st.rotIdx) ∧ PEGood P L st' ∧
      st'.mem (.rot st.rotIdx) = tab P.trgswLv1.N (fun i => extG compl P.trgswLv1.N (at' (st.mem a)) (i - k)) ∧
      (∀ r, r ≠ .rot st.rotIdx → st'.mem r = st.mem r) ∧ st'.rotIdx = (st.rotIdx + 1) % 4 ∧
      st'.trIdx = st.trIdx := by
  unfold polyMulWithXKPooled getRotationBuffer
  simp only [if_neg ha]
  have hr := hg.rot_len _ hg.rot_lt
  rw [polyMulWithXK_eq _ _ _ (by omega) (by omega), hl, List.drop_eq_nil_of_le (by omega), List.append_nil]
  have hg2 : PEGood P L { st with rotIdx := (st.rotIdx + 1) % 4 } :=
    ⟨hg.dec_len, hg.dec_row, hg.four_len, hg.four_ok, hg.okA, hg.okB, hg.rot_len, hg.trA_len, hg.trB_len,
      Nat.mod_lt _ (by norm_num), hg.tr_lt⟩
  refine ⟨_, rfl, hg2.set _ _ (by simp), by simp, ?_, rfl, rfl⟩
  intro r h
  rw [set_mem_ne _ _ _ _ h]

theorem decompositionInPlace_eq {P : Params} (L : FourierLaws O) (hd : O.deg = P.trgswLv1.N)
    (st : PEState O) (hg : PEGood P L st) (x : PRef × PRef) (off : Torus)
    (hA : (st.mem x.1).length = P.trgswLv1.N) (hB : (st.mem x.2).length = P.trgswLv1.N) :
    ∃ st', decompositionInPlace P st x off = some st' ∧ PEGood P L st' ∧ st'.mem = st.mem ∧
      st'.rotIdx = st.rotIdx ∧ st'.trIdx = st.trIdx ∧
      ∀ i < P.trgswLv1.L * 2, rd st'.decompFFT i
        = some (L.T (digitPoly P off ⟨st.mem x.1, st.mem x.2⟩ i)) := by
  set l := P.trgswLv1.L with hl
  set b := P.trgswLv1.BGBIT with hb
  set N := P.trgswLv1.N with hN
  set c : Trlwe := ⟨st.mem x.1, st.mem x.2⟩ with hc
  have hdl := hg.dec_len
  have hfl := hg.four_len
  unfold decompositionInPlace
  simp only
  rw [← hl, ← hN, ← hb, decompositionCoeffs_eq l N b _ _ off _ hdl hA.ge hB.ge hg.dec_row]
  simp only [Option.bind_eq_bind, Option.bind_some]
  set pd := tab l (fun i => tab N fun j => digit (at' (st.mem x.1) j + off) b i) ++
    tab l (fun i => tab N fun j => digit (at' (st.mem x.2) j + off) b i) ++ st.decompBuf.drop (l * 2) with hpd
  have hpdlen : l * 2 ≤ pd.length := by simp [hpd]; omega
  have hpdrd : ∀ i < l * 2, rd pd i = some (digitPoly P off c i) := by
    intro i hi
    unfold rd digitPoly
    rw [hpd, List.getElem?_append_left (by simp; omega)]
    by_cases h : i < l
    · rw [List.getElem?_append_left (by simpa using h), getElem?_tab, if_pos h, if_pos h]
    · rw [List.getElem?_append_right (by simp; omega), getElem?_tab, length_tab, if_pos (by omega),
        if_neg h]
  have hpdrow : ∀ row ∈ pd, row.length = N := by
    intro row h
    rw [hpd, List.mem_append, List.mem_append] at h
    rcases h with (h | h) | h
    · obtain ⟨i, -, rfl⟩ := List.mem_map.1 h; simp
    · obtain ⟨i, -, rfl⟩ := List.mem_map.1 h; simp
    · exact hg.dec_row row (List.mem_of_mem_drop h)
  rw [forRange_fill (l * 2) st.decompFFT (fun i => L.T (digitPoly P off c i)) hfl]
  swap
  · intro i hi
    have h2 : rd (filled i (fun i => L.T (digitPoly P off c i)) st.decompFFT) i
        = some (st.decompFFT[i]'(by omega)) := by
      unfold rd
      rw [filled_getElem? _ _ _ (by omega), if_neg (by omega), List.getElem?_eq_getElem]
    rw [hpdrd i hi, h2]
    simp only [Option.bind_some]
    rw [L.toFourier_eq _ _ (by simp [hd, hN]) (hg.four_ok _ (List.getElem_mem _))]
    rfl
  set fd := filled (l * 2) (fun i => L.T (digitPoly P off c i)) st.decompFFT with hfd
  refine ⟨_, rfl, ⟨hpdlen, hpdrow, ?_, ?_, hg.okA, hg.okB, hg.rot_len, hg.trA_len, hg.trB_len, hg.rot_lt,
    hg.tr_lt⟩, rfl, rfl, rfl, ?_⟩
  · show l * 2 ≤ fd.length
    rw [hfd, length_filled _ _ _ hfl]; exact hfl
  · intro f (h : f ∈ fd)
    rw [hfd, filled, List.mem_append] at h
    rcases h with h | h
    · obtain ⟨i, -, rfl⟩ := List.mem_map.1 h; exact L.ok_T _ (by simp [hd, hN])
    · exact hg.four_ok f (List.mem_of_mem_drop h)
  · intro i hi
    show rd fd i = _
    unfold rd
    rw [hfd, filled_getElem? _ _ _ hfl, if_pos hi]

theorem externalProductWithFFT_eq {P : Params} (L : FourierLaws O) (hd : O.deg = P.trgswLv1.N)
    (st : PEState O) (hg : PEGood P L st) (g : TrgswF O) (hgg : GoodG L P.trgswLv1.L g)
    (x : PRef × PRef) (off : Torus)
    (hA : (st.mem x.1).length = P.trgswLv1.N) (hB : (st.mem x.2).length = P.trgswLv1.N) :
    ∃ st', externalProductWithFFT P st g x off = some (st', (.trA st.trIdx, .trB st.trIdx)) ∧
      PEGood P L st' ∧
      st'.mem (.trA st.trIdx) = (extProd P L off g ⟨st.mem x.1, st.mem x.2⟩).A ∧
      st'.mem (.trB st.trIdx) = (extProd P L off g ⟨st.mem x.1, st.mem x.2⟩).B ∧
      (∀ r, r ≠ .trA st.trIdx → r ≠ .trB st.trIdx → st'.mem r = st.mem r) ∧
      st'.rotIdx = st.rotIdx ∧ st'.trIdx = (st.trIdx + 1) % 4 := by
  set l := P.trgswLv1.L with hl
  set N := P.trgswLv1.N with hN
  set c : Trlwe := ⟨st.mem x.1, st.mem x.2⟩ with hc
  have hrowg : ∀ i < l * 2, ∃ h : i < g.length, L.rowA g i = g[i].A ∧ L.rowB g i = g[i].B ∧
      L.ok g[i].A ∧ L.ok g[i].B := by
    intro i hi
    have h : i < g.length := by have := hgg.1; omega
    refine ⟨h, ?_, ?_, hgg.2 _ (List.getElem_mem h)⟩
    · unfold FourierLaws.rowA; rw [List.getElem?_eq_getElem h]; rfl
    · unfold FourierLaws.rowB; rw [List.getElem?_eq_getElem h]; rfl
  have hok : ∀ n ≤ l * 2, L.ok (L.mac (digitPoly P off c) (L.rowA g) n) ∧
      L.ok (L.mac (digitPoly P off c) (L.rowB g) n) := by
    intro n hn
    constructor <;> apply L.ok_mac <;> intro i hi
    · simp [hd, hN]
    · obtain ⟨h, e1, e2, o1, o2⟩ := hrowg i (by omega); rw [e1]; exact o1
    · simp [hd, hN]
    · obtain ⟨h, e1, e2, o1, o2⟩ := hrowg i (by omega); rw [e2]; exact o2
  obtain ⟨s1, e1, g1, m1, r1, t1, f1⟩ := decompositionInPlace_eq L hd st hg x off hA hB
  unfold externalProductWithFFT
  simp only [e1, Option.bind_eq_bind, Option.bind_some]
  rw [L.clear_eq _ g1.okA, L.clear_eq _ g1.okB, ← hl]
  have hloop := forRange_eq (l * 2) (fun i (acc : O.F × O.F) => do
      let row ← rd g i
      let d ← rd s1.decompFFT i
      let a ← O.mulAddAssign d row.A acc.1
      let row ← rd g i
      let d ← rd s1.decompFFT i
      let b ← O.mulAddAssign d row.B acc.2
      pure (a, b))
    (fun i => (L.mac (digitPoly P off c) (L.rowA g) i, L.mac (digitPoly P off c) (L.rowB g) i))
    (by
      intro i hi
      obtain ⟨h, e1, e2, o1, o2⟩ := hrowg i hi
      have okT := L.ok_T (digitPoly P off c i) (by simp [hd, hN])
      simp only [f1 i hi, rd_eq g i h, Option.bind_eq_bind, Option.bind_some]
      rw [L.mulAdd_eq _ _ _ okT o1 (hok i (by omega)).1, Option.bind_some,
        L.mulAdd_eq _ _ _ okT o2 (hok i (by omega)).2, Option.bind_some]
      simp only [FourierLaws.mac, e1, e2]; rfl)
  simp only [FourierLaws.mac, Option.bind_eq_bind] at hloop
  simp only [hloop, Option.bind_some, getTRLWEBuffer]
  have hlA := g1.trA_len _ g1.tr_lt
  have hlB := g1.trB_len _ g1.tr_lt
  obtain ⟨fa, ea, oa⟩ := L.toPoly_eq _ (s1.mem (.trA s1.trIdx)) (hok _ le_rfl).1 (by rw [hlA, hd])
  rw [ea]
  simp only [Option.bind_some, PEState.set]
  rw [Function.update_of_ne (by simp)]
  obtain ⟨fb, eb, ob⟩ := L.toPoly_eq _ (s1.mem (.trB s1.trIdx)) (hok _ le_rfl).2 (by rw [hlB, hd])
  rw [eb]
  simp only [Option.bind_some, Option.pure_def, t1]
  have hs := extProd_sized L hd off g c hgg
  refine ⟨_, rfl, ?_, ?_, ?_, ?_, r1, rfl⟩
  · refine ⟨g1.dec_len, g1.dec_row, g1.four_len, g1.four_ok, oa, ob, ?_, ?_, ?_, g1.rot_lt,
      Nat.mod_lt _ (by norm_num)⟩
    · intro i hi
      simp only [m1]
      rw [Function.update_of_ne (by simp), Function.update_of_ne (by simp)]
      exact hg.rot_len i hi
    · intro i hi
      simp only [m1]
      rw [Function.update_of_ne (by simp)]
      by_cases h : i = st.trIdx
      · subst h; rw [Function.update_self]; exact hs.1
      · rw [Function.update_of_ne (by simpa using h)]; exact hg.trA_len i hi
    · intro i hi
      simp only [m1]
      by_cases h : i = st.trIdx
      · subst h; rw [Function.update_self]; exact hs.2
      · rw [Function.update_of_ne (by simpa using h), Function.update_of_ne (by simp)]; exact hg.trB_len i hi
  · simp only
    rw [Function.update_of_ne (by simp), Function.update_self]; rfl
  · simp only
    rw [Function.update_self]; rfl
  · intro r h1 h2
    simp only [m1]
    rw [Function.update_of_ne h2, Function.update_of_ne h1]

theorem forRange_heap2 (n : ℕ) (st : PEState O) (x : PRef × PRef) (hx : x.1 ≠ x.2)
    (hA : (st.mem x.1).length = n) (hB : (st.mem x.2).length = n) (gA gB : ℕ → Torus)
    (body : ℕ → PEState O → Option (PEState O))
    (h : ∀ i < n, ∀ A B : List Torus, A.length = n → B.length = n → at' A i = at' (st.mem x.1) i →
      at' B i = at' (st.mem x.2) i →
      body i (st.set2 x A B) = some (st.set2 x (A.set i (gA i)) (B.set i (gB i)))) :
    forRange 0 n st body = some (st.set2 x (tab n gA) (tab n gB)) := by
  have h0 : st.set2 x (filled 0 gA (st.mem x.1)) (filled 0 gB (st.mem x.2)) = st := by
    simp [PEState.set2, PEState.set]
  have key := forRange_eq n body
    (fun i => st.set2 x (filled i gA (st.mem x.1)) (filled i gB (st.mem x.2)))
    (by
      intro i hi
      have e : ∀ (g : ℕ → Torus) (l : List Torus), l.length = n → at' (filled i g l) i = at' l i := by
        intro g l hl
        have := filled_getElem? i g l (by omega) i
        rw [if_neg (lt_irrefl i)] at this
        unfold at'
        rw [List.getD_eq_getElem?_getD, this, ← List.getD_eq_getElem?_getD]
      rw [h i hi _ _ (by rw [length_filled _ _ _ (by omega), hA])
        (by rw [length_filled _ _ _ (by omega), hB]) (e _ _ hA) (e _ _ hB),
        filled_succ_set _ _ _ (by omega), filled_succ_set _ _ _ (by omega)])
  simp only [h0] at key
  rw [key, filled_full' _ _ _ hA, filled_full' _ _ _ hB]

/-- `CMUX` on pooled buffers, when its inputs are not the two buffers it is about to use. -/
theorem cmuxPooled_eq {P : Params} (L : FourierLaws O) (hd : O.deg = P.trgswLv1.N)
    (st : PEState O) (hg : PEGood P L st) (g : TrgswF O) (hgg : GoodG L P.trgswLv1.L g)
    (in1 in2 : PRef × PRef) (off : Torus)
    (l1A : (st.mem in1.1).length = P.trgswLv1.N) (l1B : (st.mem in1.2).length = P.trgswLv1.N)
    (l2A : (st.mem in2.1).length = P.trgswLv1.N) (l2B : (st.mem in2.2).length = P.trgswLv1.N)
    (hne : ∀ r, (r = in1.1 ∨ r = in1.2 ∨ r = in2.1 ∨ r = in2.2) →
      r ≠ .trA st.trIdx ∧ r ≠ .trB st.trIdx ∧ r ≠ .trA ((st.trIdx + 1) % 4) ∧ r ≠ .trB ((st.trIdx + 1) % 4)) :
    ∃ st', cmuxPooled P st in1 in2 g off
        = some (st', (.trA ((st.trIdx + 1) % 4), .trB ((st.trIdx + 1) % 4))) ∧
      PEGood P L st' ∧
      (⟨st'.mem (.trA ((st.trIdx + 1) % 4)), st'.mem (.trB ((st.trIdx + 1) % 4))⟩ : Trlwe)
        = cmux P L off g ⟨st.mem in1.1, st.mem in1.2⟩ ⟨st.mem in2.1, st.mem in2.2⟩ ∧
      (∀ r, r ≠ .trA st.trIdx → r ≠ .trB st.trIdx → r ≠ .trA ((st.trIdx + 1) % 4) →
        r ≠ .trB ((st.trIdx + 1) % 4) → st'.mem r = st.mem r) ∧
      st'.rotIdx = st.rotIdx ∧ st'.trIdx = (st.trIdx + 2) % 4 := by
  set N := P.trgswLv1.N with hN
  set t0 := st.trIdx with ht0
  set t1 := (st.trIdx + 1) % 4 with ht1
  have htlt : t0 < 4 := hg.tr_lt
  obtain ⟨n11, n12, n13, n14⟩ := hne in1.1 (by simp)
  obtain ⟨n21, n22, n23, n24⟩ := hne in1.2 (by simp)
  obtain ⟨n31, n32, n33, n34⟩ := hne in2.1 (by simp)
  obtain ⟨n41, n42, n43, n44⟩ := hne in2.2 (by simp)
  unfold cmuxPooled getTRLWEBuffer
  simp only
  set s0 : PEState O := { st with trIdx := (st.trIdx + 1) % 4 } with hs0
  have hg0 : PEGood P L s0 :=
    ⟨hg.dec_len, hg.dec_row, hg.four_len, hg.four_ok, hg.okA, hg.okB, hg.rot_len, hg.trA_len, hg.trB_len,
      hg.rot_lt, Nat.mod_lt _ (by norm_num)⟩
  have hm0 : s0.mem = st.mem := rfl
  have hx : (PRef.trA t0, PRef.trB t0).1 ≠ (PRef.trA t0, PRef.trB t0).2 := by simp
  have lt0A : (s0.mem (PRef.trA t0, PRef.trB t0).1).length = N := hg.trA_len _ htlt
  have lt0B : (s0.mem (PRef.trA t0, PRef.trB t0).2).length = N := hg.trB_len _ htlt
  rw [forRange_heap2 N s0 (PRef.trA t0, PRef.trB t0) hx lt0A lt0B
    (fun i => at' (st.mem in2.1) i - at' (st.mem in1.1) i)
    (fun i => at' (st.mem in2.2) i - at' (st.mem in1.2) i)]
  swap
  · intro i hi A B hA hB _ _
    rw [set2_ne _ _ _ _ _ n31 n32, set2_ne _ _ _ _ _ n11 n12, hm0, rd_at' _ _ (by omega),
      rd_at' _ _ (by omega)]
    simp only [Option.bind_eq_bind, Option.bind_some]
    rw [set2_wr1 _ (PRef.trA t0, PRef.trB t0) _ _ hx _ _ (by omega), Option.bind_some,
      set2_ne _ _ _ _ _ n41 n42, set2_ne _ _ _ _ _ n21 n22, hm0, rd_at' _ _ (by omega),
      rd_at' _ _ (by omega)]
    simp only [Option.bind_some]
    rw [set2_wr2 _ (PRef.trA t0, PRef.trB t0) _ _ _ _ (by omega)]
  simp only [Option.bind_eq_bind, Option.bind_some]
  set s1 := s0.set2 (PRef.trA t0, PRef.trB t0) (tab N fun i => at' (st.mem in2.1) i - at' (st.mem in1.1) i)
    (tab N fun i => at' (st.mem in2.2) i - at' (st.mem in1.2) i) with hs1
  have hg1 : PEGood P L s1 := hg0.set2 _ _ _ (by simp [hN]) (by simp [hN])
  have m1A : s1.mem (.trA t0) = tab N fun i => at' (st.mem in2.1) i - at' (st.mem in1.1) i :=
    set2_fst _ _ _ _ hx
  have m1B : s1.mem (.trB t0) = tab N fun i => at' (st.mem in2.2) i - at' (st.mem in1.2) i :=
    set2_snd _ _ _ _
  obtain ⟨s2, e2, hg2, mA, mB, fr, ri, ti⟩ := externalProductWithFFT_eq L hd s1 hg1 g hgg
    (PRef.trA t0, PRef.trB t0) off (by rw [m1A]; simp [hN]) (by rw [m1B]; simp [hN])
  have hti1 : s1.trIdx = t1 := rfl
  rw [hti1] at e2 mA mB fr ti
  rw [e2]
  simp only [Option.bind_some]
  have hx2 : (PRef.trA t1, PRef.trB t1).1 ≠ (PRef.trA t1, PRef.trB t1).2 := by simp
  have keep : ∀ r, r ≠ .trA t0 → r ≠ .trB t0 → r ≠ .trA t1 → r ≠ .trB t1 → s2.mem r = st.mem r := by
    intro r h1 h2 h3 h4
    rw [fr r h3 h4, hs1, set2_ne _ _ _ _ _ h1 h2, hm0]
  have k1 := keep _ n11 n12 n13 n14
  have k2 := keep _ n21 n22 n23 n24
  have ht1lt : t1 < 4 := Nat.mod_lt _ (by norm_num)
  rw [forRange_heap2 N s2 (PRef.trA t1, PRef.trB t1) hx2 (hg2.trA_len _ ht1lt) (hg2.trB_len _ ht1lt)
    (fun i => at' (s2.mem (.trA t1)) i + at' (st.mem in1.1) i)
    (fun i => at' (s2.mem (.trB t1)) i + at' (st.mem in1.2) i)]
  swap
  · intro i hi A B hA hB eA eB
    have r1 : (s2.set2 (PRef.trA t1, PRef.trB t1) A B).mem (.trA t1) = A := set2_fst _ _ _ _ hx2
    rw [r1, set2_ne _ _ _ _ _ n13 n14, k1, rd_at' _ _ (by omega), rd_at' _ _ (by omega), eA]
    simp only [Option.bind_some]
    rw [set2_wr1 _ (PRef.trA t1, PRef.trB t1) _ _ hx2 _ _ (by omega), Option.bind_some]
    have r2 : ∀ A, (s2.set2 (PRef.trA t1, PRef.trB t1) A B).mem (.trB t1) = B :=
      fun A => set2_snd _ _ _ _
    rw [r2, set2_ne _ _ _ _ _ n23 n24, k2, rd_at' _ _ (by omega), rd_at' _ _ (by omega), eB]
    simp only [Option.bind_some]
    rw [set2_wr2 _ (PRef.trA t1, PRef.trB t1) _ _ _ _ (by omega)]
  simp only [Option.bind_some, Option.pure_def]
  refine ⟨_, rfl, hg2.set2 _ _ _ (by simp [hN]) (by simp [hN]), ?_, ?_, ri, ?_⟩
  · have r1 : ∀ A B, (s2.set2 (PRef.trA t1, PRef.trB t1) A B).mem (.trA t1) = A :=
      fun _ _ => set2_fst _ _ _ _ hx2
    have r2 : ∀ A B, (s2.set2 (PRef.trA t1, PRef.trB t1) A B).mem (.trB t1) = B :=
      fun _ _ => set2_snd _ _ _ _
    rw [r1, r2, mA, mB, m1A, m1B]
    unfold cmux Trlwe.add Trlwe.sub
    simp only [Trlwe.mk.injEq]
    exact ⟨tab_congr fun i _ => add_comm _ _, tab_congr fun i _ => add_comm _ _⟩
  · intro r h1 h2 h3 h4
    rw [set2_ne _ _ _ _ _ h3 h4, keep r h1 h2 h3 h4]
  · show s2.trIdx = _
    rw [ti]; omega

/-- `BlindRotate` on pooled buffers, from every state of the pools. -/
theorem blindRotatePooled_eq {P : Params} (W : WellFormed P) (L : FourierLaws O)
    (hd : O.deg = P.trgswLv1.N) (st : PEState O) (hg : PEGood P L st) (bsk : List (TrgswF O))
    (hb : GoodBsk P L bsk) (off : Torus) (src : List Torus) (hsrc : src.length = P.tlweLv0.N + 1)
    (tv : PRef × PRef) (hr1 : ∀ i, tv.1 ≠ .rot i) (hr2 : ∀ i, tv.2 ≠ .rot i)
    (lA : (st.mem tv.1).length = P.trgswLv1.N) (lB : (st.mem tv.2).length = P.trgswLv1.N) :
    ∃ st' res, blindRotatePooled P st src tv bsk off = some (st', res) ∧ PEGood P L st' ∧
      (⟨st'.mem res.1, st'.mem res.2⟩ : Trlwe) = blindRot P L off bsk ⟨st.mem tv.1, st.mem tv.2⟩ src ∧
      (∀ k, st'.mem (.user k) = st.mem (.user k)) ∧
      res = (.trA ((st.trIdx + 2 * P.tlweLv0.N - 1) % 4), .trB ((st.trIdx + 2 * P.tlweLv0.N - 1) % 4)) ∧
      st'.trIdx = (st.trIdx + 2 * P.tlweLv0.N) % 4 := by
  set N := P.trgswLv1.N with hN
  have hN1 : 1 ≤ N := by have := W.min_degree; omega
  set c := src with hc
  set tvv : Trlwe := ⟨st.mem tv.1, st.mem tv.2⟩ with htv
  unfold blindRotatePooled resetRotationPool tlwe0B
  rw [rd_at' _ _ (by omega)]
  simp only [Option.bind_eq_bind, Option.bind_some]
  set s0 : PEState O := { st with rotIdx := 0 } with hs0
  have hg0 : PEGood P L s0 :=
    ⟨hg.dec_len, hg.dec_row, hg.four_len, hg.four_ok, hg.okA, hg.okB, hg.rot_len, hg.trA_len, hg.trB_len,
      by norm_num [hs0], hg.tr_lt⟩
  obtain ⟨s1, e1, g1, m1, f1, ri1, ti1⟩ := polyMulWithXKPooled_eq L hN1 s0 hg0 tv.1
    (bTilda N P.trgswLv1.NBIT (at' c P.tlweLv0.N)) (hr1 _) lA
  have hri0 : s0.rotIdx = 0 := rfl
  rw [hri0] at e1 m1 f1 ri1
  rw [e1]
  simp only [Option.bind_some]
  have hB1 : s1.mem tv.2 = st.mem tv.2 := f1 _ (hr2 _)
  obtain ⟨s2, e2, g2, m2, f2, ri2, ti2⟩ := polyMulWithXKPooled_eq L hN1 s1 g1 tv.2
    (bTilda N P.trgswLv1.NBIT (at' c P.tlweLv0.N)) (hr2 _) (by rw [hB1]; exact lB)
  rw [ri1] at e2 m2 f2 ri2
  simp only [show (0 + 1) % 4 = 1 from rfl] at *
  rw [e2]
  simp only [Option.bind_some]
  -- the loop
  have hu2 : ∀ k, s2.mem (.user k) = st.mem (.user k) := by
    intro k; rw [f2 _ (by simp), f1 _ (by simp)]
  obtain ⟨s', e', hI⟩ := forRange_inv 0 P.tlweLv0.N (Nat.zero_le _) (s2, (PRef.rot 0, PRef.rot 1))
    (fun i (s : PEState O × (PRef × PRef)) => (rd c i).bind fun a =>
      (polyMulWithXKPooled s.1 s.2.1 (aTilda P.trgswLv1.NBIT a)).bind fun x =>
        (polyMulWithXKPooled x.1 s.2.2 (aTilda P.trgswLv1.NBIT a)).bind fun y =>
          (rd bsk i).bind fun g => cmuxPooled P y.1 s.2 (x.2, y.2) g off)
    (fun i s => PEGood P L s.1 ∧ (⟨s.1.mem s.2.1, s.1.mem s.2.2⟩ : Trlwe) = blindAcc P L off bsk tvv c i ∧
      (∀ k, s.1.mem (.user k) = st.mem (.user k)) ∧ s.1.rotIdx = (2 * i + 2) % 4 ∧
      s.1.trIdx = (st.trIdx + 2 * i) % 4 ∧
      (i = 0 → s.2 = (.rot 0, .rot 1)) ∧
      (0 < i → s.2 = (.trA ((st.trIdx + 2 * i - 1) % 4), .trB ((st.trIdx + 2 * i - 1) % 4))))
    ⟨g2, by
        simp only [blindAcc, rot, htv, Trlwe.mk.injEq]
        refine ⟨?_, ?_⟩
        · rw [f2 _ (by simp), m1]
        · rw [m2, hB1], hu2, by rw [ri2], by
        rw [ti2, ti1]; show st.trIdx = _; have := hg.tr_lt; omega, fun _ => rfl, fun h => absurd h (lt_irrefl _)⟩
    (by
      rintro i ⟨s, res⟩ - hi ⟨hgs, hv, hu, hri, hti, hr0, hrp⟩
      simp only at hgs hv hu hri hti hr0 hrp
      have hib : i < bsk.length := lt_of_lt_of_le hi hb.1
      have hsz := blindAcc_sized P L off bsk tvv c i
      rw [← hv] at hsz
      have hresrot : res.1 ≠ .rot s.rotIdx ∧ res.2 ≠ .rot s.rotIdx ∧
          res.2 ≠ .rot ((s.rotIdx + 1) % 4) ∧ res.1 ≠ .rot ((s.rotIdx + 1) % 4) := by
        by_cases h0 : i = 0
        · subst h0
          rw [hr0 rfl, hri]; simp
        · rw [hrp (by omega)]; simp
      have hrestr : ∀ r, r = res.1 ∨ r = res.2 → r ≠ .trA s.trIdx ∧ r ≠ .trB s.trIdx ∧
          r ≠ .trA ((s.trIdx + 1) % 4) ∧ r ≠ .trB ((s.trIdx + 1) % 4) := by
        by_cases h0 : i = 0
        · rw [hr0 h0]; rintro r (rfl | rfl) <;> simp
        · rw [hrp (by omega), hti]
          rintro r (rfl | rfl)
          · refine ⟨?_, by simp, ?_, by simp⟩ <;> (simp only [ne_eq, PRef.trA.injEq]; omega)
          · refine ⟨by simp, ?_, by simp, ?_⟩ <;> (simp only [ne_eq, PRef.trB.injEq]; omega)
      rw [rd_at' _ _ (by omega), Option.bind_some]
      obtain ⟨s3, e3, g3, m3, f3, ri3, ti3⟩ := polyMulWithXKPooled_eq L hN1 s hgs res.1
        (aTilda P.trgswLv1.NBIT (at' c i)) hresrot.1 hsz.1
      simp only [e3, Option.bind_some]
      have hB3 : s3.mem res.2 = s.mem res.2 := f3 _ hresrot.2.1
      obtain ⟨s4, e4, g4, m4, f4, ri4, ti4⟩ := polyMulWithXKPooled_eq L hN1 s3 g3 res.2
        (aTilda P.trgswLv1.NBIT (at' c i)) (by rw [ri3]; exact hresrot.2.2.1) (by rw [hB3]; exact hsz.2)
      rw [ri3] at e4 m4 f4 ri4
      simp only [e4, Option.bind_some, rd_eq bsk i hib]
      have hrotne : PRef.rot s.rotIdx ≠ PRef.rot ((s.rotIdx + 1) % 4) := by
        have := hgs.rot_lt
        simp only [ne_eq, PRef.rot.injEq]; omega
      have v1 : s4.mem res.1 = s.mem res.1 := by
        rw [f4 _ hresrot.2.2.2, f3 _ hresrot.1]
      have v2 : s4.mem res.2 = s.mem res.2 := by
        rw [f4 _ hresrot.2.2.1, f3 _ hresrot.2.1]
      have v3 : s4.mem (.rot s.rotIdx) = tab N fun j => extG compl N (at' (s.mem res.1))
          (j - aTilda P.trgswLv1.NBIT (at' c i)) := by rw [f4 _ hrotne, m3]
      have v4 : s4.mem (.rot ((s.rotIdx + 1) % 4)) = tab N fun j => extG compl N (at' (s.mem res.2))
          (j - aTilda P.trgswLv1.NBIT (at' c i)) := by rw [m4, hB3]
      obtain ⟨s5, e5, g5, m5, f5, ri5, ti5⟩ := cmuxPooled_eq L hd s4 g4 bsk[i]
        (hb.2 _ (List.getElem_mem _)) res (.rot s.rotIdx, .rot ((s.rotIdx + 1) % 4)) off
        (by rw [v1]; exact hsz.1) (by rw [v2]; exact hsz.2) (by rw [v3]; simp [hN]) (by rw [v4]; simp [hN])
        (by
          rw [ti4, ti3]
          rintro r (h | h | h | h)
          · exact hrestr r (Or.inl h)
          · exact hrestr r (Or.inr h)
          · subst h; simp
          · subst h; simp)
      have hti4 : s4.trIdx = s.trIdx := by rw [ti4, ti3]
      rw [hti4] at e5 m5 f5 ti5
      refine ⟨_, e5, g5, ?_, ?_, ?_, ?_, fun h => absurd h (by omega), fun _ => ?_⟩
      · simp only
        rw [m5, v1, v2, v3, v4, hv]
        simp only [blindAcc, List.getD_eq_getElem?_getD, List.getElem?_eq_getElem hib, Option.getD_some]
        rw [← hv]
        rfl
      · intro k
        simp only
        rw [f5 _ (by simp) (by simp) (by simp) (by simp), f4 _ (by simp), f3 _ (by simp), hu k]
      · simp only
        rw [ri5, ri4, hri]; omega
      · simp only
        rw [ti5, hti]; omega
      · simp only [hti]
        have : (st.trIdx + 2 * i) % 4 + 1 = ((st.trIdx + 2 * i) % 4 + 1) := rfl
        have e : ((st.trIdx + 2 * i) % 4 + 1) % 4 = (st.trIdx + 2 * (i + 1) - 1) % 4 := by omega
        rw [e])
  obtain ⟨sf, rf⟩ := s'
  obtain ⟨hgf, hvf, huf, -, htf, -, hrf⟩ := hI
  refine ⟨sf, rf, ?_, hgf, hvf, huf, hrf W.lv0_pos, htf⟩
  exact e'

end GoTfhe
