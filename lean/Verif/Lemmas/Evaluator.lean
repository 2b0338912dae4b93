import Verif.Lemmas.Trlwe
import Verif.Lemmas.Decomp
import Verif.Lemmas.Rotate
import Verif.Lemmas.KeySwitch
import Verif.Model.Evaluator
import Verif.Props.Params

/-!
# The evaluator computes pure functions of its inputs

`extProd`, `cmux`, `blindRot` and `bootPure` are functions of ciphertext values. The methods of the
evaluator, run on any state whose buffers have the right sizes, write exactly these values, whatever
the buffers contained before.
-/

namespace GoTfhe

/-- Both parts have length `N`. -/
def Trlwe.Sized (t : Trlwe) (N : ℕ) : Prop := t.A.length = N ∧ t.B.length = N

/-- The evaluator's own TRLWE buffers. -/
def TRef.internal : TRef → Prop
  | .user _ => False
  | _ => True

variable {O : FourierOps}

/-- The buffers of the evaluator have the sizes that the parameters `P` ask for, except that the result
pool holds ciphertexts of dimension `m`. -/
structure EvGoodAt (P : Params) (L : FourierLaws O) (m : ℕ) (st : EvState O) : Prop where
  dec_len : P.trgswLv1.L * 2 ≤ st.polyDec.length
  dec_row : ∀ row ∈ st.polyDec, row.length = P.trgswLv1.N
  four_len : P.trgswLv1.L * 2 ≤ st.fourDec.length
  four_ok : ∀ f ∈ st.fourDec, L.ok f
  okA : L.ok st.fourierA
  okB : L.ok st.fourierB
  tr_len : ∀ r : TRef, r.internal → (st.tr r).Sized P.trgswLv1.N
  ext_len : (st.lw .extracted).length = P.trgswLv1.N + 1
  pool_len : ∀ i < 4, (st.lw (.pool i)).length = m + 1
  idx_lt : st.poolIdx < 4

/-- The buffers of the evaluator have the sizes that the parameters `P` ask for. -/
abbrev EvGood (P : Params) (L : FourierLaws O) (st : EvState O) : Prop := EvGoodAt P L P.tlweLv0.N st

/-- A TRGSW sample in the Fourier domain with enough well-formed rows. -/
def GoodG (L : FourierLaws O) (l : ℕ) (g : TrgswF O) : Prop :=
  l * 2 ≤ g.length ∧ ∀ row ∈ g, L.ok row.A ∧ L.ok row.B

namespace FourierLaws

variable (L : FourierLaws O)

/-- `Σ_{i<n} T(d_i) * g_i` accumulated from a cleared accumulator. -/
def mac (d : ℕ → List Torus) (g : ℕ → O.F) : ℕ → O.F
  | 0 => L.Z
  | n + 1 => L.MulAdd (L.T (d n)) (g n) (mac d g n)

/-- Row `i` of a Fourier TRGSW. -/
def rowA (g : TrgswF O) (i : ℕ) : O.F := (g[i]?).elim L.Z TrlweF.A
def rowB (g : TrgswF O) (i : ℕ) : O.F := (g[i]?).elim L.Z TrlweF.B

theorem ok_mac (d : ℕ → List Torus) (g : ℕ → O.F) (n : ℕ) (hd : ∀ i < n, (d i).length = O.deg)
    (hg : ∀ i < n, L.ok (g i)) : L.ok (L.mac d g n) := by
  induction n with
  | zero => exact L.ok_Z
  | succ n ih =>
    exact L.ok_MulAdd _ _ _ (L.ok_T _ (hd n (by omega))) (hg n (by omega))
      (ih (fun i h => hd i (by omega)) (fun i h => hg i (by omega)))

end FourierLaws

/-- Digit polynomial `i` of a TRLWE sample: the first `l` come from `A`, the others from `B`. -/
def digitPoly (P : Params) (off : Torus) (c : Trlwe) (i : ℕ) : List Torus :=
  if i < P.trgswLv1.L then
    tab P.trgswLv1.N fun j => digit (at' c.A j + off) P.trgswLv1.BGBIT i
  else tab P.trgswLv1.N fun j => digit (at' c.B j + off) P.trgswLv1.BGBIT (i - P.trgswLv1.L)

@[simp] theorem length_digitPoly (P : Params) (off : Torus) (c : Trlwe) (i : ℕ) :
    (digitPoly P off c i).length = P.trgswLv1.N := by
  unfold digitPoly; split_ifs <;> simp

/-- Value of the external product. -/
def extProd (P : Params) (L : FourierLaws O) (off : Torus) (g : TrgswF O) (c : Trlwe) : Trlwe :=
  ⟨L.R (L.mac (digitPoly P off c) (L.rowA g) (P.trgswLv1.L * 2)),
   L.R (L.mac (digitPoly P off c) (L.rowB g) (P.trgswLv1.L * 2))⟩

/-- Pointwise difference and sum of TRLWE samples of size `N`. -/
def Trlwe.sub (N : ℕ) (x y : Trlwe) : Trlwe :=
  ⟨tab N fun i => at' x.A i - at' y.A i, tab N fun i => at' x.B i - at' y.B i⟩
def Trlwe.add (N : ℕ) (x y : Trlwe) : Trlwe :=
  ⟨tab N fun i => at' x.A i + at' y.A i, tab N fun i => at' x.B i + at' y.B i⟩

/-- Value of the CMUX. -/
def cmux (P : Params) (L : FourierLaws O) (off : Torus) (g : TrgswF O) (c0 c1 : Trlwe) : Trlwe :=
  Trlwe.add P.trgswLv1.N c0 (extProd P L off g (Trlwe.sub P.trgswLv1.N c1 c0))

/-- Value of the rotation of both parts by `X^k` (with `^0 - x` at each wrap). -/
def rot (N : ℕ) (k : ℤ) (t : Trlwe) : Trlwe :=
  ⟨tab N fun i => extG compl N (at' t.A) (i - k), tab N fun i => extG compl N (at' t.B) (i - k)⟩

/-- The accumulator of the blind rotation after `i` steps, `c` being the LWE sample. -/
def blindAcc (P : Params) (L : FourierLaws O) (off : Torus) (bsk : List (TrgswF O)) (tv : Trlwe)
    (c : List Torus) : ℕ → Trlwe
  | 0 => rot P.trgswLv1.N (bTilda P.trgswLv1.N P.trgswLv1.NBIT (at' c P.tlweLv0.N)) tv
  | i + 1 =>
    let acc := blindAcc P L off bsk tv c i
    cmux P L off (bsk.getD i []) acc (rot P.trgswLv1.N (aTilda P.trgswLv1.NBIT (at' c i)) acc)

/-- Value of the blind rotation. -/
def blindRot (P : Params) (L : FourierLaws O) (off : Torus) (bsk : List (TrgswF O)) (tv : Trlwe)
    (c : List Torus) : Trlwe :=
  blindAcc P L off bsk tv c P.tlweLv0.N

/-- Value of the bootstrapping. -/
def bootPure (P : Params) (L : FourierLaws O) (off : Torus) (bsk : List (TrgswF O))
    (ksk : List (List Torus)) (tv : Trlwe) (c : List Torus) : List Torus :=
  ksOut P.tlweLv0.N P.trgswLv1.N P.trgswLv1.BASEBIT P.trgswLv1.IKS_T
    (extracted P.trgswLv1.N (blindRot P L off bsk tv c) 0) ksk


/-! ### Refinement -/

theorem extProd_sized {P : Params} (L : FourierLaws O) (hd : O.deg = P.trgswLv1.N) (off : Torus)
    (g : TrgswF O) (c : Trlwe) (hg : GoodG L P.trgswLv1.L g) :
    (extProd P L off g c).Sized P.trgswLv1.N := by
  have key : ∀ i < P.trgswLv1.L * 2, L.ok (L.rowA g i) ∧ L.ok (L.rowB g i) := by
    intro i hi
    have h : i < g.length := by have := hg.1; omega
    unfold FourierLaws.rowA FourierLaws.rowB
    rw [List.getElem?_eq_getElem h]
    exact hg.2 _ (List.getElem_mem h)
  constructor
  · show (L.R _).length = _
    rw [L.length_R _ (L.ok_mac _ _ _ (fun i _ => by simp [hd]) fun i hi => (key i hi).1), hd]
  · show (L.R _).length = _
    rw [L.length_R _ (L.ok_mac _ _ _ (fun i _ => by simp [hd]) fun i hi => (key i hi).2), hd]

theorem externalProductAssign_eq {P : Params} {m : ℕ} (W : WellFormed P) (L : FourierLaws O)
    (hd : O.deg = P.trgswLv1.N) (st : EvState O) (hst : EvGoodAt P L m st) (g : TrgswF O)
    (hg : GoodG L P.trgswLv1.L g) (off : Torus) (ctIn ctOut : TRef)
    (hin : (st.tr ctIn).Sized P.trgswLv1.N) (hout : (st.tr ctOut).Sized P.trgswLv1.N) :
    ∃ st', externalProductAssign P st g ctIn off ctOut = some st' ∧ EvGoodAt P L m st' ∧
      st'.tr = Function.update st.tr ctOut (extProd P L off g (st.tr ctIn)) ∧
      st'.lw = st.lw ∧ st'.poolIdx = st.poolIdx := by
  set l := P.trgswLv1.L with hl
  set b := P.trgswLv1.BGBIT with hb
  set N := P.trgswLv1.N with hN
  set c := st.tr ctIn with hc
  have hrowg : ∀ i < l * 2, ∃ h : i < g.length, L.rowA g i = g[i].A ∧ L.rowB g i = g[i].B ∧
      L.ok g[i].A ∧ L.ok g[i].B := by
    intro i hi
    have h : i < g.length := by have := hg.1; omega
    refine ⟨h, ?_, ?_, hg.2 _ (List.getElem_mem h)⟩
    · unfold FourierLaws.rowA; rw [List.getElem?_eq_getElem h]; rfl
    · unfold FourierLaws.rowB; rw [List.getElem?_eq_getElem h]; rfl
  unfold externalProductAssign
  simp only [← hl, ← hb, ← hc]
  rw [if_neg (by have := hst.dec_len; omega), if_neg (by have := hst.four_len; omega)]
  have hbp : 1 ≤ b := W.bgbit_pos
  have hdl := hst.dec_len
  rw [decomposePolyAssign_eq c.A b l off _ hbp (by rw [List.length_take]; omega)
    (fun row h => by rw [hst.dec_row row (List.mem_of_mem_take h), hin.1])]
  simp only [Option.bind_eq_bind, Option.bind_some]
  rw [decomposePolyAssign_eq c.B b l off _ hbp
    (by rw [List.length_drop, List.length_take]; omega)
    (fun row h => by rw [hst.dec_row row (List.mem_of_mem_take (List.mem_of_mem_drop h)), hin.2])]
  simp only [Option.bind_some]
  rw [List.drop_eq_nil_of_le (as := st.polyDec.take l) (by rw [List.length_take]; omega),
    List.drop_eq_nil_of_le (as := (st.polyDec.take (l * 2)).drop l)
      (by rw [List.length_drop, List.length_take]; omega), List.append_nil, List.append_nil,
      hin.1, hin.2]
  set pd := tab l (fun i => tab N fun j => digit (at' c.A j + off) b i) ++
    tab l (fun i => tab N fun j => digit (at' c.B j + off) b i) ++ st.polyDec.drop (l * 2) with hpd
  have hpdlen : l * 2 ≤ pd.length := by simp [hpd]; omega
  have hpdrd : ∀ i < l * 2, rd pd i = some (digitPoly P off c i) := by
    intro i hi
    unfold rd digitPoly
    rw [hpd, List.getElem?_append_left (by simp; omega)]
    by_cases h : i < l
    · rw [List.getElem?_append_left (by simpa using h), getElem?_tab, if_pos h, if_pos h]
    · rw [List.getElem?_append_right (by simp; omega), getElem?_tab, length_tab, if_pos (by omega),
        if_neg h]
  have hpdrow : ∀ row ∈ pd, row.length = N := by
    intro row h
    rw [hpd, List.mem_append, List.mem_append] at h
    rcases h with (h | h) | h
    · obtain ⟨i, -, rfl⟩ := List.mem_map.1 h; simp
    · obtain ⟨i, -, rfl⟩ := List.mem_map.1 h; simp
    · exact hst.dec_row row (List.mem_of_mem_drop h)
  have hfl := hst.four_len
  rw [forRange_fill (l * 2) st.fourDec (fun i => L.T (digitPoly P off c i)) hfl]
  swap
  · intro i hi
    have h2 : rd (filled i (fun i => L.T (digitPoly P off c i)) st.fourDec) i
        = some (st.fourDec[i]'(by omega)) := by
      unfold rd
      rw [filled_getElem? _ _ _ (by omega), if_neg (by omega), List.getElem?_eq_getElem]
    rw [hpdrd i hi, h2]
    simp only [Option.bind_some]
    rw [L.toFourier_eq _ _ (by simp [hd, hN]) (hst.four_ok _ (List.getElem_mem _))]
    rfl
  simp only [Option.bind_some]
  rw [L.clear_eq _ hst.okA, L.clear_eq _ hst.okB]
  set fd := filled (l * 2) (fun i => L.T (digitPoly P off c i)) st.fourDec with hfd
  have hfdlen : l * 2 ≤ fd.length := by rw [hfd, length_filled _ _ _ hfl]; exact hfl
  have hfdrd : ∀ i < l * 2, rd fd i = some (L.T (digitPoly P off c i)) := by
    intro i hi
    unfold rd
    rw [hfd, filled_getElem? _ _ _ hfl, if_pos hi]
  have hfdok : ∀ f ∈ fd, L.ok f := by
    intro f h
    rw [hfd, filled, List.mem_append] at h
    rcases h with h | h
    · obtain ⟨i, -, rfl⟩ := List.mem_map.1 h; exact L.ok_T _ (by simp [hd, hN])
    · exact hst.four_ok f (List.mem_of_mem_drop h)
  have hok : ∀ n ≤ l * 2, L.ok (L.mac (digitPoly P off c) (L.rowA g) n) ∧
      L.ok (L.mac (digitPoly P off c) (L.rowB g) n) := by
    intro n hn
    constructor <;> apply L.ok_mac <;> intro i hi
    · simp [hd, hN]
    · obtain ⟨h, e1, e2, o1, o2⟩ := hrowg i (by omega); rw [e1]; exact o1
    · simp [hd, hN]
    · obtain ⟨h, e1, e2, o1, o2⟩ := hrowg i (by omega); rw [e2]; exact o2
  have hloop := forRange_eq (l * 2) (fun i (acc : O.F × O.F) => do
      let d ← rd fd i
      let row ← rd g i
      let a ← O.mulAddAssign d row.A acc.1
      let row ← rd g i
      let b ← O.mulAddAssign d row.B acc.2
      pure (a, b))
    (fun i => (L.mac (digitPoly P off c) (L.rowA g) i, L.mac (digitPoly P off c) (L.rowB g) i))
    (by
      intro i hi
      obtain ⟨h, e1, e2, o1, o2⟩ := hrowg i hi
      have okT := L.ok_T (digitPoly P off c i) (by simp [hd, hN])
      simp only [hfdrd i hi, rd_eq g i h, Option.bind_eq_bind, Option.bind_some]
      rw [L.mulAdd_eq _ _ _ okT o1 (hok i (by omega)).1, Option.bind_some,
        L.mulAdd_eq _ _ _ okT o2 (hok i (by omega)).2, Option.bind_some]
      simp only [FourierLaws.mac, e1, e2]; rfl)
  simp only [FourierLaws.mac, Option.bind_eq_bind] at hloop
  simp only [hloop, Option.bind_some]
  obtain ⟨fa, ea, oa⟩ := L.toPoly_eq _ (st.tr ctOut).A (hok _ le_rfl).1 (by rw [hout.1, hd])
  rw [ea]
  simp only [Option.bind_some, EvState.setTr, Function.update_self]
  obtain ⟨fb, eb, ob⟩ := L.toPoly_eq _ (st.tr ctOut).B (hok _ le_rfl).2 (by rw [hout.2, hd])
  rw [eb]
  refine ⟨_, rfl, ?_, ?_, rfl, rfl⟩
  · have hs := extProd_sized L hd off g c hg
    refine ⟨hpdlen, hpdrow, hfdlen, hfdok, oa, ob, ?_, hst.ext_len, hst.pool_len, hst.idx_lt⟩
    intro r hr
    by_cases h : r = ctOut
    · subst h
      simp only [Function.update_self]
      exact hs
    · simp only [Function.update_of_ne h]
      exact hst.tr_len r hr
  · simp only [Function.update_idem]
    rfl

theorem forRange_heap (n : ℕ) (st : EvState O) (r : TRef) (hr : (st.tr r).Sized n) (gA gB : ℕ → Torus)
    (body : ℕ → EvState O → Option (EvState O))
    (h : ∀ i < n, ∀ A B : List Torus, A.length = n → B.length = n → at' A i = at' (st.tr r).A i →
      at' B i = at' (st.tr r).B i →
      body i (st.setTr r ⟨A, B⟩) = some (st.setTr r ⟨A.set i (gA i), B.set i (gB i)⟩)) :
    forRange 0 n st body = some (st.setTr r ⟨tab n gA, tab n gB⟩) := by
  have h0 : st.setTr r ⟨filled 0 gA (st.tr r).A, filled 0 gB (st.tr r).B⟩ = st := by
    simp [EvState.setTr]
  have key := forRange_eq n body
    (fun i => st.setTr r ⟨filled i gA (st.tr r).A, filled i gB (st.tr r).B⟩)
    (by
      intro i hi
      have e : ∀ (g : ℕ → Torus) (l : List Torus), l.length = n → at' (filled i g l) i = at' l i := by
        intro g l hl
        have := filled_getElem? i g l (by omega) i
        rw [if_neg (lt_irrefl i)] at this
        unfold at'
        rw [List.getD_eq_getElem?_getD, this, ← List.getD_eq_getElem?_getD]
      rw [h i hi _ _ (by rw [length_filled _ _ _ (by rw [hr.1]; omega), hr.1])
        (by rw [length_filled _ _ _ (by rw [hr.2]; omega), hr.2]) (e _ _ hr.1) (e _ _ hr.2),
        filled_succ_set _ _ _ (by rw [hr.1]; omega), filled_succ_set _ _ _ (by rw [hr.2]; omega)])
  simp only [h0] at key
  rw [key, filled_full' _ _ _ hr.1, filled_full' _ _ _ hr.2]


theorem copySlice_of_length {α : Type*} (dst src : List α) (h : dst.length = src.length) :
    copySlice dst src = src := by
  unfold copySlice
  rw [List.take_of_length_le (by omega), List.drop_eq_nil_of_le (by omega), List.append_nil]

theorem add_sized (N : ℕ) (x y : Trlwe) : (Trlwe.add N x y).Sized N := by simp [Trlwe.Sized, Trlwe.add]
theorem sub_sized (N : ℕ) (x y : Trlwe) : (Trlwe.sub N x y).Sized N := by simp [Trlwe.Sized, Trlwe.sub]
theorem rot_sized (N : ℕ) (k : ℤ) (x : Trlwe) : (rot N k x).Sized N := by simp [Trlwe.Sized, rot]
theorem cmux_sized (P : Params) (L : FourierLaws O) (off : Torus) (g : TrgswF O) (c0 c1 : Trlwe) :
    (cmux P L off g c0 c1).Sized P.trgswLv1.N := add_sized _ _ _

theorem blindAcc_sized (P : Params) (L : FourierLaws O) (off : Torus) (bsk : List (TrgswF O))
    (tv : Trlwe) (c : List Torus) (i : ℕ) : (blindAcc P L off bsk tv c i).Sized P.trgswLv1.N := by
  cases i
  · exact rot_sized _ _ _
  · exact cmux_sized _ _ _ _ _ _

theorem EvGoodAt.setTr {P : Params} {m : ℕ} {L : FourierLaws O} {st : EvState O} (h : EvGoodAt P L m st) (r : TRef)
    (t : Trlwe) (ht : t.Sized P.trgswLv1.N) : EvGoodAt P L m (st.setTr r t) := by
  refine ⟨h.dec_len, h.dec_row, h.four_len, h.four_ok, h.okA, h.okB, ?_, h.ext_len, h.pool_len, h.idx_lt⟩
  intro r' hr'
  unfold EvState.setTr
  by_cases e : r' = r
  · subst e; simpa using ht
  · simpa [e] using h.tr_len r' hr'

@[simp] theorem EvState.setTr_tr (st : EvState O) (r : TRef) (t : Trlwe) :
    (st.setTr r t).tr r = t := by simp [EvState.setTr]
theorem EvState.setTr_tr_ne (st : EvState O) (r r' : TRef) (t : Trlwe) (h : r' ≠ r) :
    (st.setTr r t).tr r' = st.tr r' := by simp [EvState.setTr, h]
@[simp] theorem EvState.setTr_lw (st : EvState O) (r : TRef) (t : Trlwe) :
    (st.setTr r t).lw = st.lw := rfl
@[simp] theorem EvState.setTr_poolIdx (st : EvState O) (r : TRef) (t : Trlwe) :
    (st.setTr r t).poolIdx = st.poolIdx := rfl
@[simp] theorem EvState.setTr_setTr (st : EvState O) (r : TRef) (t t' : Trlwe) :
    (st.setTr r t).setTr r t' = st.setTr r t' := by simp [EvState.setTr]

/-- `CMuxAssign`, for every aliasing of its arguments. If `ctOut` is `ct1`, then `ct1` is overwritten by
`ct0` before it is read. -/
theorem cMuxAssign_eq {P : Params} {m : ℕ} (W : WellFormed P) (L : FourierLaws O)
    (hd : O.deg = P.trgswLv1.N) (st : EvState O) (hst : EvGoodAt P L m st) (g : TrgswF O)
    (hg : GoodG L P.trgswLv1.L g) (off : Torus) (ct0 ct1 ctOut : TRef)
    (hs0 : ct0 ≠ .cmuxTmp ∧ ct0 ≠ .extRes) (hs1 : ct1 ≠ .cmuxTmp ∧ ct1 ≠ .extRes)
    (hso : ctOut ≠ .cmuxTmp ∧ ctOut ≠ .extRes)
    (h0 : (st.tr ct0).Sized P.trgswLv1.N) (h1 : (st.tr ct1).Sized P.trgswLv1.N)
    (ho : (st.tr ctOut).Sized P.trgswLv1.N) :
    ∃ st', cMuxAssign P st g ct0 ct1 off ctOut = some st' ∧ EvGoodAt P L m st' ∧
      st'.tr ctOut = cmux P L off g (st.tr ct0) (if ct1 = ctOut then st.tr ct0 else st.tr ct1) ∧
      (∀ r, r ≠ ctOut → r ≠ .cmuxTmp → r ≠ .extRes → st'.tr r = st.tr r) ∧
      st'.lw = st.lw ∧ st'.poolIdx = st.poolIdx := by
  set N := P.trgswLv1.N with hN
  unfold cMuxAssign
  simp only
  rw [copySlice_of_length _ _ (by rw [ho.1, h0.1])]
  set c0 := st.tr ct0 with hc0
  set c1 := if ct1 = ctOut then st.tr ct0 else st.tr ct1 with hc1
  -- after the copies
  set s1 := st.setTr ctOut c0 with hs1def
  have hcopy : (st.setTr ctOut ⟨c0.A, (st.tr ctOut).B⟩).setTr ctOut
      ⟨((st.setTr ctOut ⟨c0.A, (st.tr ctOut).B⟩).tr ctOut).A,
        copySlice ((st.setTr ctOut ⟨c0.A, (st.tr ctOut).B⟩).tr ctOut).B
          ((st.setTr ctOut ⟨c0.A, (st.tr ctOut).B⟩).tr ct0).B⟩ = s1 := by
    have hB : ((st.setTr ctOut ⟨c0.A, (st.tr ctOut).B⟩).tr ct0).B = c0.B := by
      by_cases e : ct0 = ctOut
      · subst e; simp [hc0]
      · rw [EvState.setTr_tr_ne _ _ _ _ e]
    rw [hB, EvState.setTr_tr, EvState.setTr_setTr, copySlice_of_length _ _ (by
      show (st.tr ctOut).B.length = _
      rw [ho.2, h0.2])]
  rw [hcopy]
  have hg1 : EvGoodAt P L m s1 := hst.setTr _ _ h0
  have r0 : s1.tr ct0 = c0 := by
    by_cases e : ct0 = ctOut
    · subst e; simp [hs1def]
    · rw [hs1def, EvState.setTr_tr_ne _ _ _ _ e]
  have r1 : s1.tr ct1 = c1 := by
    by_cases e : ct1 = ctOut
    · rw [hc1, if_pos e]; subst e; simp [hs1def]; rfl
    · rw [hc1, if_neg e, hs1def, EvState.setTr_tr_ne _ _ _ _ e]
  have hc1s : c1.Sized N := by rw [hc1]; split_ifs <;> assumption
  -- difference loop
  rw [forRange_heap N s1 .cmuxTmp (hg1.tr_len _ trivial) (fun i => at' c1.A i - at' c0.A i)
    (fun i => at' c1.B i - at' c0.B i)]
  swap
  · intro i hi A B hA hB _ _
    rw [EvState.setTr_tr_ne _ _ _ _ hs1.1, EvState.setTr_tr_ne _ _ _ _ hs0.1, r0, r1,
      rd_at' c1.A i (by rw [hc1s.1]; exact hi), rd_at' c0.A i (by rw [h0.1]; exact hi)]
    simp only [Option.bind_eq_bind, Option.bind_some, EvState.wrA, EvState.setTr_tr]
    rw [wr_eq _ _ _ (by omega)]
    simp only [Option.bind_some, EvState.setTr_setTr, Option.pure_def]
    rw [EvState.setTr_tr_ne _ _ _ _ hs1.1, EvState.setTr_tr_ne _ _ _ _ hs0.1, r0, r1,
      rd_at' c1.B i (by rw [hc1s.2]; exact hi), rd_at' c0.B i (by rw [h0.2]; exact hi)]
    simp only [Option.bind_some, EvState.wrB, EvState.setTr_tr]
    rw [wr_eq _ _ _ (by omega)]
    simp
  simp only [Option.bind_eq_bind, Option.bind_some]
  set s2 := s1.setTr .cmuxTmp ⟨tab N fun i => at' c1.A i - at' c0.A i,
    tab N fun i => at' c1.B i - at' c0.B i⟩ with hs2
  have hg2 : EvGoodAt P L m s2 := hg1.setTr _ _ (by simp [Trlwe.Sized, hN])
  have e2 : s2.tr .cmuxTmp = Trlwe.sub N c1 c0 := by simp [hs2, Trlwe.sub]
  obtain ⟨s3, e3, hg3, t3, l3, p3⟩ := externalProductAssign_eq W L hd s2 hg2 g hg off .cmuxTmp .extRes
    (hg2.tr_len _ trivial) (hg2.tr_len _ trivial)
  rw [e3, Option.bind_some]
  have ro : s3.tr ctOut = c0 := by
    rw [t3, Function.update_of_ne hso.2, hs2, EvState.setTr_tr_ne _ _ _ _ hso.1, hs1def, EvState.setTr_tr]
  have re : s3.tr .extRes = extProd P L off g (Trlwe.sub N c1 c0) := by
    rw [t3, Function.update_self, e2]
  have hes := hg3.tr_len .extRes trivial
  rw [forRange_heap N s3 ctOut (by rw [ro]; exact h0)
    (fun i => at' c0.A i + at' (s3.tr .extRes).A i) (fun i => at' c0.B i + at' (s3.tr .extRes).B i)]
  swap
  · intro i hi A B hA hB eA eB
    rw [ro] at eA eB
    simp only [EvState.wrA, EvState.wrB, Option.bind_eq_bind]
    rw [EvState.setTr_tr, EvState.setTr_tr_ne _ _ _ _ hso.2.symm, rd_at' A i (by omega),
      rd_at' _ i (by rw [hes.1]; exact hi), eA]
    simp only [Option.bind_some]
    rw [wr_eq _ _ _ (by omega)]
    simp only [Option.bind_some, EvState.setTr_setTr, Option.pure_def]
    rw [EvState.setTr_tr, EvState.setTr_tr_ne _ _ _ _ hso.2.symm, rd_at' B i (by omega),
      rd_at' _ i (by rw [hes.2]; exact hi), eB]
    simp only [Option.bind_some]
    rw [wr_eq _ _ _ (by omega)]
    simp
  refine ⟨_, rfl, hg3.setTr _ _ (by simp [Trlwe.Sized, hN]), ?_, ?_, ?_, ?_⟩
  · rw [EvState.setTr_tr, re]; rfl
  · intro r hr hr2 hr3
    rw [EvState.setTr_tr_ne _ _ _ _ hr, t3, Function.update_of_ne hr3, hs2,
      EvState.setTr_tr_ne _ _ _ _ hr2, hs1def, EvState.setTr_tr_ne _ _ _ _ hr]
  · rw [EvState.setTr_lw, l3]; rfl
  · rw [EvState.setTr_poolIdx, p3]; rfl

theorem rotateInto_eq (N : ℕ) (hN : 1 ≤ N) (st : EvState O) (src dst : TRef) (k : ℤ) (hne : src ≠ dst)
    (hs : (st.tr src).Sized N) (hd : (st.tr dst).Sized N) :
    rotateInto st src k dst = some (st.setTr dst (rot N k (st.tr src))) := by
  unfold rotateInto
  simp only [if_neg hne]
  rw [polyMulWithXK_eq _ _ _ (by rw [hs.1]; exact hN) (by rw [hs.1, hd.1]), hs.1,
    List.drop_eq_nil_of_le (by rw [hd.1]), List.append_nil]
  simp only [Option.bind_eq_bind, Option.bind_some]
  rw [EvState.setTr_tr_ne _ _ _ _ hne, EvState.setTr_tr]
  rw [polyMulWithXK_eq _ _ _ (by rw [hs.2]; exact hN) (by rw [hs.2, hd.2]), hs.2,
    List.drop_eq_nil_of_le (by rw [hd.2]), List.append_nil]
  simp [rot]

/-- A bootstrapping key with enough well-formed entries. -/
def GoodBsk (P : Params) (L : FourierLaws O) (bsk : List (TrgswF O)) : Prop :=
  P.tlweLv0.N ≤ bsk.length ∧ ∀ g ∈ bsk, GoodG L P.trgswLv1.L g

/-- TRLWE buffers written by blind rotation. -/
def TRef.scratch : TRef → Prop
  | .extRes | .cmuxTmp | .acc1 | .acc2 => True
  | _ => False

/-- `BlindRotateAssign` for every previous content of the evaluator's buffers. -/
theorem blindRotateAssign_eq {P : Params} {m : ℕ} (W : WellFormed P) (L : FourierLaws O)
    (hd : O.deg = P.trgswLv1.N) (st : EvState O) (hst : EvGoodAt P L m st) (bsk : List (TrgswF O))
    (hb : GoodBsk P L bsk) (off : Torus) (ctIn : LRef) (testvec ctOut : TRef)
    (hin : (st.lw ctIn).length = P.tlweLv0.N + 1)
    (htv : testvec ≠ .acc1) (hco : ¬ ctOut.scratch)
    (ht : (st.tr testvec).Sized P.trgswLv1.N) (ho : (st.tr ctOut).Sized P.trgswLv1.N) :
    ∃ st', blindRotateAssign P st ctIn testvec bsk off ctOut = some st' ∧ EvGoodAt P L m st' ∧
      st'.tr ctOut = blindRot P L off bsk (st.tr testvec) (st.lw ctIn) ∧
      (∀ r, r ≠ ctOut → ¬ r.scratch → st'.tr r = st.tr r) ∧
      st'.lw = st.lw ∧ st'.poolIdx = st.poolIdx := by
  set N := P.trgswLv1.N with hN
  have hN1 : 1 ≤ N := by have := W.min_degree; omega
  set c := st.lw ctIn with hc
  set tv := st.tr testvec with htvd
  unfold blindRotateAssign tlwe0B
  rw [rd_at' _ _ (by show _ < c.length; omega)]
  simp only [Option.bind_eq_bind, Option.bind_some]
  rw [rotateInto_eq N hN1 st testvec .acc1 _ htv ht (hst.tr_len _ trivial)]
  simp only [Option.bind_some]
  obtain ⟨s', e, hg', hacc, hfr, hl', hp'⟩ := forRange_inv 0 P.tlweLv0.N (Nat.zero_le _)
    (st.setTr .acc1 (rot N (bTilda N P.trgswLv1.NBIT (at' c P.tlweLv0.N)) tv))
    (fun i st => (rd (st.lw ctIn) i).bind fun a =>
      (rotateInto st .acc1 (aTilda P.trgswLv1.NBIT a) .acc2).bind fun st =>
        (rd bsk i).bind fun g => cMuxAssign P st g .acc1 .acc2 off .acc1)
    (fun i s => EvGoodAt P L m s ∧ s.tr .acc1 = blindAcc P L off bsk tv c i ∧
      (∀ r : TRef, ¬ r.scratch → s.tr r = st.tr r) ∧ s.lw = st.lw ∧ s.poolIdx = st.poolIdx)
    ⟨hst.setTr _ _ (rot_sized _ _ _), by simp [blindAcc, hN], by
      intro r hr
      exact EvState.setTr_tr_ne _ _ _ _ (by rintro rfl; exact hr trivial), rfl, rfl⟩
    (by
      rintro i s - hi ⟨hg, ha, hf, hl, hp⟩
      have hib : i < bsk.length := lt_of_lt_of_le hi hb.1
      rw [hl, rd_at' _ _ (by show _ < c.length; omega), Option.bind_some,
        rotateInto_eq N hN1 s .acc1 .acc2 _ (by decide) (hg.tr_len _ trivial) (hg.tr_len _ trivial),
        Option.bind_some, rd_eq bsk i hib, Option.bind_some]
      have hg2 := hg.setTr .acc2 _ (rot_sized N (aTilda P.trgswLv1.NBIT (at' c i)) (s.tr .acc1))
      obtain ⟨s2, e2, g2, t2, f2, l2, p2⟩ := cMuxAssign_eq W L hd _ hg2 bsk[i]
        (hb.2 _ (List.getElem_mem _)) off .acc1 .acc2 .acc1 (by decide) (by decide) (by decide)
        (hg2.tr_len _ trivial) (hg2.tr_len _ trivial) (hg2.tr_len _ trivial)
      refine ⟨s2, e2, g2, ?_, ?_, by rw [l2]; exact hl, by rw [p2]; exact hp⟩
      · rw [t2, if_neg (by decide), EvState.setTr_tr, EvState.setTr_tr_ne _ _ _ _ (by decide), ha]
        simp only [blindAcc, List.getD_eq_getElem?_getD, List.getElem?_eq_getElem hib, Option.getD_some]
        rfl
      · intro r hr
        rw [f2 r (by rintro rfl; exact hr trivial) (by rintro rfl; exact hr trivial)
          (by rintro rfl; exact hr trivial),
          EvState.setTr_tr_ne _ _ _ _ (by rintro rfl; exact hr trivial), hf r hr])
  rw [e]
  simp only [Option.bind_some]
  have hsa := hg'.tr_len .acc1 trivial
  have hso : (s'.tr ctOut).Sized N := by rw [hfr _ hco]; exact ho
  have hne : TRef.acc1 ≠ ctOut := by rintro rfl; exact hco trivial
  refine ⟨_, rfl, ?_, ?_, ?_, ?_, ?_⟩
  · rw [EvState.setTr_tr, EvState.setTr_tr_ne _ _ _ _ hne, EvState.setTr_setTr,
      copySlice_of_length _ _ (by rw [hso.1, hsa.1]), copySlice_of_length _ _ (by rw [hsa.2]; exact hso.2)]
    exact hg'.setTr _ _ hsa
  · rw [EvState.setTr_tr, EvState.setTr_tr, EvState.setTr_tr_ne _ _ _ _ hne,
      copySlice_of_length _ _ (by rw [hso.1, hsa.1]), copySlice_of_length _ _ (by rw [hsa.2]; exact hso.2)]
    exact hacc
  · intro r hr hrs
    rw [EvState.setTr_tr_ne _ _ _ _ hr, EvState.setTr_tr_ne _ _ _ _ hr, hfr r hrs]
  · exact hl'
  · exact hp'

/-- A key-switching key with enough entries of the right size. -/
def GoodKsk (P : Params) (ksk : List (List Torus)) : Prop :=
  2 ^ P.trgswLv1.BASEBIT * P.trgswLv1.IKS_T * P.trgswLv1.N ≤ ksk.length ∧
    ∀ e ∈ ksk, P.tlweLv0.N + 1 ≤ e.length

theorem length_ksOut (n0 n b T : ℕ) (src : List Torus) (ksk : List (List Torus)) :
    (ksOut n0 n b T src ksk).length = n0 + 1 := by simp [ksOut]

theorem length_bootPure (P : Params) (L : FourierLaws O) (off : Torus) (bsk : List (TrgswF O))
    (ksk : List (List Torus)) (tv : Trlwe) (c : List Torus) :
    (bootPure P L off bsk ksk tv c).length = P.tlweLv0.N + 1 := length_ksOut _ _ _ _ _ _

/-- `BootstrapAssign` for every previous content of the evaluator's buffers; `ctOut` may be `ctIn`. -/
theorem bootstrapAssign_eq {P : Params} (W : WellFormed P) (L : FourierLaws O)
    (hd : O.deg = P.trgswLv1.N) (st : EvState O) (hst : EvGood P L st) (bsk : List (TrgswF O))
    (hb : GoodBsk P L bsk) (ksk : List (List Torus)) (hk : GoodKsk P ksk) (off : Torus)
    (ctIn : LRef) (testvec : TRef) (ctOut : LRef)
    (hin : (st.lw ctIn).length = P.tlweLv0.N + 1)
    (htv : testvec ≠ .acc1) (ht : (st.tr testvec).Sized P.trgswLv1.N)
    (hoe : ctOut ≠ .extracted) (ho : (st.lw ctOut).length = P.tlweLv0.N + 1) :
    ∃ st', bootstrapAssign P st ctIn testvec bsk ksk off ctOut = some st' ∧ EvGood P L st' ∧
      st'.lw ctOut = bootPure P L off bsk ksk (st.tr testvec) (st.lw ctIn) ∧
      (∀ r, r ≠ ctOut → r ≠ .extracted → st'.lw r = st.lw r) ∧
      (∀ r : TRef, ¬ r.internal → st'.tr r = st.tr r) ∧ st'.poolIdx = st.poolIdx := by
  obtain ⟨s, e, hg, t, f, l, p⟩ := blindRotateAssign_eq W L hd st hst bsk hb off ctIn testvec .rotated
    hin htv (by simp [TRef.scratch]) ht (hst.tr_len _ trivial)
  unfold bootstrapAssign
  rw [e]
  simp only [Option.bind_eq_bind, Option.bind_some]
  have hN0 : 0 < P.trgswLv1.N := by have := W.min_degree; omega
  have hrs := hg.tr_len .rotated trivial
  rw [sampleExtractIndexAssign_eq P (by rw [W.lv1_eq, W.trlwe_eq]) _ 0 _ (by rw [W.trlwe_eq]; exact hN0)
    (by rw [W.trlwe_eq]; exact hrs.1) (by rw [hrs.2]; exact hN0) (by rw [W.trlwe_eq]; exact hg.ext_len)]
  simp only [Option.bind_some, EvState.setLw, Function.update_self, Function.update_of_ne hoe]
  rw [W.trlwe_eq, identityKeySwitchingAssign_eq P _ ksk _ W.basebit_pos W.ks_fits (by simp [extracted])
    (by rw [l]; exact ho) hk.1 hk.2]
  refine ⟨_, rfl, ?_, ?_, ?_, ?_, p⟩
  · refine ⟨hg.dec_len, hg.dec_row, hg.four_len, hg.four_ok, hg.okA, hg.okB, hg.tr_len, ?_, ?_, hg.idx_lt⟩
    · simp [Function.update_of_ne hoe.symm, extracted]
    · intro i hi
      simp only
      by_cases h : LRef.pool i = ctOut
      · rw [h, Function.update_self]; simp [length_ksOut]
      · rw [Function.update_of_ne h, Function.update_of_ne (by simp)]
        exact hg.pool_len i hi
  · simp only [Function.update_self]
    rw [t]; rfl
  · intro r h1 h2
    simp only [Function.update_of_ne h1, Function.update_of_ne h2, l]
  · intro r hr
    apply f r
    · rintro rfl; exact hr trivial
    · cases r <;> simp_all [TRef.scratch, TRef.internal]

theorem bootstrapPooled_eq {P : Params} (W : WellFormed P) (L : FourierLaws O)
    (hd : O.deg = P.trgswLv1.N) (st : EvState O) (hst : EvGood P L st) (bsk : List (TrgswF O))
    (hb : GoodBsk P L bsk) (ksk : List (List Torus)) (hk : GoodKsk P ksk) (off : Torus)
    (ctIn : LRef) (testvec : TRef) (hin : (st.lw ctIn).length = P.tlweLv0.N + 1)
    (htv : testvec ≠ .acc1) (ht : (st.tr testvec).Sized P.trgswLv1.N) :
    ∃ st', bootstrapPooled P st ctIn testvec bsk ksk off = some (st', .pool st.poolIdx) ∧
      EvGood P L st' ∧
      st'.lw (.pool st.poolIdx) = bootPure P L off bsk ksk (st.tr testvec) (st.lw ctIn) ∧
      (∀ r, r ≠ .pool st.poolIdx → r ≠ .extracted → st'.lw r = st.lw r) ∧
      (∀ r : TRef, ¬ r.internal → st'.tr r = st.tr r) ∧ st'.poolIdx = (st.poolIdx + 1) % 4 := by
  unfold bootstrapPooled getNextResult
  have hst2 : EvGood P L { st with poolIdx := (st.poolIdx + 1) % 4 } :=
    ⟨hst.dec_len, hst.dec_row, hst.four_len, hst.four_ok, hst.okA, hst.okB, hst.tr_len, hst.ext_len,
      hst.pool_len, Nat.mod_lt _ (by norm_num)⟩
  obtain ⟨s, e, hg, h1, h2, h3, h4⟩ := bootstrapAssign_eq W L hd _ hst2 bsk hb ksk hk off ctIn testvec
    (.pool st.poolIdx) hin htv ht (by simp) (hst.pool_len _ hst.idx_lt)
  simp only [e, Option.bind_eq_bind, Option.bind_some]
  exact ⟨s, rfl, hg, h1, h2, h3, h4⟩

end GoTfhe
