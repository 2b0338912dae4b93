import Verif.Model.Gates
import Verif.Lemmas.Bootstrap
import Verif.Lemmas.EvCalls

/-!
# The gates as linear preparation followed by one bootstrapping
-/

namespace GoTfhe

variable {O : FourierOps}

theorem f64ToTorus_quarter : f64ToTorus 0.25 = 1073741824#32 := by
  have := f64ToTorus_int_div 1073741824 (by norm_num) (by norm_num)
  rw [show ((1073741824 : ℤ) : ℚ) / 2 ^ 32 = 0.25 by norm_num] at this
  rw [this]; rfl

theorem f64ToTorus_neg_quarter : f64ToTorus (-0.25) = -1073741824#32 := by
  rw [f64ToTorus_neg, f64ToTorus_quarter]

/-- `α a + β b`, with `κ` added to the body. -/
def lin (n : ℕ) (α β κ : Torus) (a b : List Torus) : List Torus :=
  tab (n + 1) fun i => α * at' a i + β * at' b i + if i = n then κ else 0

@[simp] theorem length_lin (n : ℕ) (α β κ : Torus) (a b : List Torus) : (lin n α β κ a b).length = n + 1 := by
  simp [lin]

theorem phase_lin (n : ℕ) (α β κ : Torus) (a b s : List Torus) :
    phase n (lin n α β κ a b) s = α * phase n a s + β * phase n b s + κ := by
  unfold lin
  rw [phase_tab, if_pos rfl]
  have : ∑ i ∈ Finset.range n, (α * at' a i + β * at' b i + if i = n then κ else 0) * at' s i
      = α * ∑ i ∈ Finset.range n, at' a i * at' s i + β * ∑ i ∈ Finset.range n, at' b i * at' s i := by
    rw [Finset.mul_sum, Finset.mul_sum, ← Finset.sum_add_distrib]
    apply Finset.sum_congr rfl
    intro i hi
    rw [if_neg (by have := Finset.mem_range.1 hi; omega)]
    ring
  rw [this]
  unfold phase
  ring

/-- The coefficients of each gate's preparation. -/
def Gate2.coef : Gate2 → Torus × Torus × Torus
  | .nand => (-1, -1, 536870912#32)
  | .and => (1, 1, -536870912#32)
  | .or => (1, 1, 536870912#32)
  | .xor => (1, 2, 1073741824#32)
  | .xnor => (1, -2, 1073741824#32)
  | .nor => (-1, -1, -536870912#32)
  | .andny => (-1, 1, -536870912#32)
  | .andyn => (1, -1, -536870912#32)
  | .orny => (-1, 1, 536870912#32)
  | .oryn => (1, -1, 536870912#32)

theorem prep_loop (n : ℕ) (f : Torus → Torus → Torus) (a b r : List Torus) (κ : Torus)
    (ha : a.length = n + 1) (hb : b.length = n + 1) (hr : r.length = n + 1) :
    ((forRange 0 n r fun i r => do
        let x ← rd a i
        let y ← rd b i
        wr r i (f x y)) >>= fun result => do
      let x ← rd a n
      let y ← rd b n
      wr result n (f x y + κ))
    = some (tab (n + 1) fun i => f (at' a i) (at' b i) + if i = n then κ else 0) := by
  rw [forRange_fill n r (fun i => f (at' a i) (at' b i) + if i = n then κ else 0) (by omega) _ (by
    intro i hi
    simp only [rd_at' a i (by omega), rd_at' b i (by omega), Option.bind_eq_bind, Option.bind_some]
    rw [if_neg (by omega), add_zero])]
  simp only [Option.bind_eq_bind, Option.bind_some, rd_at' a n (by omega), rd_at' b n (by omega)]
  have := wr_filled n (fun i => f (at' a i) (at' b i) + if i = n then κ else 0) r (by omega)
  simp only [if_true] at this
  rw [this, filled_full' _ _ _ hr]

theorem shiftB_tab (P : Params) (g : ℕ → Torus) (d : ℚ) :
    shiftB P (tab (P.tlweLv0.N + 1) g) d
      = some (tab (P.tlweLv0.N + 1) fun i => g i + if i = P.tlweLv0.N then f64ToTorus d else 0) := by
  unfold shiftB tlwe0B tlwe0SetB
  rw [rd_at' _ _ (by simp)]
  simp only [Option.bind_eq_bind, Option.bind_some]
  rw [wr_eq _ _ _ (by simp), at'_tab _ _ _ (by omega)]
  congr 1
  apply List.ext_getElem?
  intro i
  rw [List.getElem?_set, getElem?_tab, getElem?_tab]
  by_cases h : P.tlweLv0.N = i
  · subst h; simp
  · rw [if_neg h]
    by_cases h2 : i < P.tlweLv0.N + 1
    · simp only [if_pos h2, if_neg (Ne.symm h), add_zero]
    · simp only [if_neg h2]

theorem tlwe0Neg_eq (P : Params) (x : List Torus) (hx : x.length = P.tlweLv0.N + 1) :
    tlwe0Neg P x = some (tab (P.tlweLv0.N + 1) fun i => -at' x i) := by
  have hz : (newTLWELv0 P).length = P.tlweLv0.N + 1 := by simp [newTLWELv0]
  unfold tlwe0Neg
  simp only [hz]
  apply forRange_fill_full _ _ _ hz
  intro i hi r hr
  rw [rd_at' x i (by omega)]
  change wr r i (0 - at' x i) = _
  rw [zero_sub]

theorem zip0_eq (P : Params) (f : Torus → Torus → Torus) (x y : List Torus)
    (hx : x.length = P.tlweLv0.N + 1) (hy : y.length = P.tlweLv0.N + 1) :
    zipLoop f x y (newTLWELv0 P) = some (tab (P.tlweLv0.N + 1) fun i => f (at' x i) (at' y i)) := by
  have hz : (newTLWELv0 P).length = P.tlweLv0.N + 1 := by simp [newTLWELv0]
  rw [zipLoop_eq f x y _ (by omega) (by omega), hz]

theorem gatePrepare_eq (P : Params) (g : Gate2) (a b : List Torus) (ha : a.length = P.tlweLv0.N + 1)
    (hb : b.length = P.tlweLv0.N + 1) :
    gatePrepare P g a b = some (lin P.tlweLv0.N g.coef.1 g.coef.2.1 g.coef.2.2 a b) := by
  have hr : (newTLWELv0 P).length = P.tlweLv0.N + 1 := by simp [newTLWELv0]
  unfold lin
  cases g with
  | nand =>
    refine (prep_loop P.tlweLv0.N (fun x y => -(x + y)) a b (newTLWELv0 P) (f64ToTorus 0.125) ha hb hr).trans ?_
    rw [f64ToTorus_eighth]
    congr 1
    apply tab_congr
    intro i _
    simp only [Gate2.coef]
    ring
  | and =>
    refine (prep_loop P.tlweLv0.N (fun x y => x + y) a b (newTLWELv0 P) (f64ToTorus (-0.125)) ha hb hr).trans ?_
    rw [f64ToTorus_neg_eighth]
    congr 1
    apply tab_congr
    intro i _
    simp only [Gate2.coef]
    ring
  | or =>
    refine (prep_loop P.tlweLv0.N (fun x y => x + y) a b (newTLWELv0 P) (f64ToTorus 0.125) ha hb hr).trans ?_
    rw [f64ToTorus_eighth]
    congr 1
    apply tab_congr
    intro i _
    simp only [Gate2.coef]
    ring
  | xor =>
    refine (prep_loop P.tlweLv0.N (fun x y => x + 2 * y) a b (newTLWELv0 P) (f64ToTorus 0.25) ha hb hr).trans ?_
    rw [f64ToTorus_quarter]
    congr 1
    apply tab_congr
    intro i _
    simp only [Gate2.coef]
    ring
  | xnor =>
    simp only [gatePrepare, prepareXNOR, tlwe0SubMul, zip0_eq P _ a b ha hb, Option.bind_eq_bind, Option.bind_some,
      shiftB_tab, f64ToTorus_quarter]
    congr 1
    apply tab_congr
    intro i _
    simp only [Gate2.coef]
    ring
  | nor =>
    simp only [gatePrepare, prepareNOR, tlwe0Add, zip0_eq P _ a b ha hb, Option.bind_eq_bind, Option.bind_some]
    rw [tlwe0Neg_eq P _ (by simp)]
    simp only [Option.bind_some, shiftB_tab, f64ToTorus_neg_eighth]
    congr 1
    apply tab_congr
    intro i hi
    rw [at'_tab _ _ _ hi]
    simp only [Gate2.coef]
    ring
  | andny =>
    simp only [gatePrepare, prepareANDNY, tlwe0Add, tlwe0Neg_eq P a ha, Option.bind_eq_bind, Option.bind_some]
    rw [zip0_eq P _ _ b (by simp) hb]
    simp only [Option.bind_some, shiftB_tab, f64ToTorus_neg_eighth]
    congr 1
    apply tab_congr
    intro i hi
    rw [at'_tab _ _ _ hi]
    simp only [Gate2.coef]
    ring
  | andyn =>
    simp only [gatePrepare, prepareANDYN, tlwe0Sub, zip0_eq P _ a b ha hb, Option.bind_eq_bind, Option.bind_some,
      shiftB_tab, f64ToTorus_neg_eighth]
    congr 1
    apply tab_congr
    intro i _
    simp only [Gate2.coef]
    ring
  | orny =>
    simp only [gatePrepare, prepareORNY, tlwe0Add, tlwe0Neg_eq P a ha, Option.bind_eq_bind, Option.bind_some]
    rw [zip0_eq P _ _ b (by simp) hb]
    simp only [Option.bind_some, shiftB_tab, f64ToTorus_eighth]
    congr 1
    apply tab_congr
    intro i hi
    rw [at'_tab _ _ _ hi]
    simp only [Gate2.coef]
    ring
  | oryn =>
    simp only [gatePrepare, prepareORYN, tlwe0Sub, zip0_eq P _ a b ha hb, Option.bind_eq_bind, Option.bind_some,
      shiftB_tab, f64ToTorus_eighth]
    congr 1
    apply tab_congr
    intro i _
    simp only [Gate2.coef]
    ring

theorem gate2_eq (P : Params) (g : Gate2) (st : EvState O) (a b : List Torus) (ck : CloudKey O) :
    gate2 P g st a b ck = (gatePrepare P g a b).bind fun c => gateBootstrap P st c ck := by
  cases g <;> rfl

/-- The keys have the sizes the code needs. -/
structure CkGood (P : Params) (L : FourierLaws O) (ck : CloudKey O) : Prop where
  bsk : GoodBsk P L ck.bootstrappingKey
  ksk : GoodKsk P ck.keySwitchingKey
  tv : ck.blindRotateTestvec.Sized P.trgswLv1.N

theorem gateBootstrap_eq {P : Params} (W : WellFormed P) (L : FourierLaws O) (hd : O.deg = P.trgswLv1.N)
    {st : EvState O} (hst : EvGood P L st) {ck : CloudKey O} (hck : CkGood P L ck) (c : List Torus)
    (hc : c.length = P.tlweLv0.N + 1) :
    ∃ st', gateBootstrap P st c ck = some (st', bootOut P L ck ck.blindRotateTestvec c) ∧ EvGood P L st' := by
  have hst' : EvGood P L ((st.setLw (.user 0) c).setTr (.user 0) ck.blindRotateTestvec) :=
    (hst.setLw_user 0 c).setTr_user 0 _
  obtain ⟨s, e, hg, h1, -⟩ := bootstrapPooled_eq W L hd _ hst' ck.bootstrappingKey hck.bsk ck.keySwitchingKey
    hck.ksk ck.decompositionOffset (.user 0) (.user 0) (by
      show (Function.update st.lw (.user 0) c (.user 0)).length = _
      rw [Function.update_self, hc]) (by simp) (by
      show (Function.update st.tr (.user 0) ck.blindRotateTestvec (.user 0)).Sized _
      rw [Function.update_self]; exact hck.tv)
  unfold gateBootstrap
  simp only [e, Option.bind_eq_bind, Option.bind_some]
  have ev : s.lw (.pool ((st.setLw (.user 0) c).setTr (.user 0) ck.blindRotateTestvec).poolIdx)
      = bootOut P L ck ck.blindRotateTestvec c := by
    rw [h1]
    show bootPure P L _ _ _ (Function.update st.tr (.user 0) ck.blindRotateTestvec (.user 0))
      (Function.update st.lw (.user 0) c (.user 0)) = _
    rw [Function.update_self, Function.update_self]; rfl
  rw [ev]
  have hl : (bootOut P L ck ck.blindRotateTestvec c).length = P.tlweLv0.N + 1 := length_bootPure _ _ _ _ _ _ _
  set v := bootOut P L ck ck.blindRotateTestvec c with hv
  rw [copySlice_of_length _ _ (by simp [newTLWELv0, hl])]
  unfold tlwe0B tlwe0SetB
  rw [rd_at' _ _ (by omega), Option.bind_some, wr_eq _ _ _ (by omega)]
  simp only [Option.bind_some, Option.pure_def]
  refine ⟨s, ?_, hg⟩
  congr 2
  apply List.ext_getElem?
  intro i
  rw [List.getElem?_set]
  split_ifs with h
  · subst h
    rw [at'_of_lt _ _ (by omega)]; simp [hl]
  · omega
  · rfl

end GoTfhe
