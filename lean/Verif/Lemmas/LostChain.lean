import Verif.Lemmas.Lost
import Verif.Lemmas.LowBits
import Verif.Lemmas.GadgetIdeal
import Verif.Lemmas.Chain
import Verif.Props.KeyNoise

/-!
# The lost bits over the masks of the bootstrapping key

The masks of the entries of the bootstrapping key are uniform. What a step of the blind rotation adds to the mask of the
accumulator is a linear function of them, so the bits that the next step loses are nearly uniform.
-/

namespace GoTfhe

open Finset

variable {O : FourierOps}

/-- Entry `i` of the bootstrapping key before the transform. -/
def gswOf (P : Params) (L : FourierLaws O) (k0 k1 : List Torus) (R : KeyGenRand) (ω : KeyMasks P) (i : ℕ) : Trgsw :=
  tab (2 * P.trgswLv1.L) (gswRow P L (at' k0 i) k1 (maskDraw ω i) (R.bskSample i))

/-- The bootstrapping key. -/
def bskM (P : Params) (L : FourierLaws O) (k0 k1 : List Torus) (R : KeyGenRand) (ω : KeyMasks P) : List (TrgswF O) :=
  tab P.tlweLv0.N fun i => (gswOf P L k0 k1 R ω i).map fun r => ⟨L.T r.A, L.T r.B⟩

theorem polyOf_add {N : ℕ} (u v : Fin N → Torus) (k : ℕ) : polyOf (u + v) k = polyOf u k + polyOf v k := by
  unfold polyOf
  split_ifs
  · rfl
  · exact (add_zero _).symm

theorem polyOf_zero {N : ℕ} : polyOf (0 : Fin N → Torus) = fun _ => 0 := by
  funext k
  unfold polyOf
  split_ifs <;> rfl

/-! ### Refreshing -/

/-- What a step adds to the mask of the accumulator, as a function of the masks of its entry. -/
def linMask (N : ℕ) {J : ℕ} (d : ℕ → ℕ → Torus) (x : Fin J → Fin N → Torus) (k : ℕ) : Torus :=
  ∑ j : Fin J, negMul N (d j) (polyOf (x j)) k

theorem linMask_add (N : ℕ) {J : ℕ} (d : ℕ → ℕ → Torus) (x y : Fin J → Fin N → Torus) (k : ℕ) :
    linMask N d (x + y) k = linMask N d x k + linMask N d y k := by
  unfold linMask
  rw [← sum_add_distrib]
  refine sum_congr rfl fun j _ => ?_
  rw [← negMul_add_right]
  congr 1
  funext i
  exact polyOf_add _ _ _

/-- If some digit is not a multiple of `g`, adding the masks adds a polynomial that is uniform modulo `g`. -/
theorem avg_refresh (g : ℕ) (hg : g = 32 ∨ g = 64) {N n J : ℕ} (hN : N = 2 ^ n) (hn : 1 ≤ n) (d : ℕ → ℕ → Torus)
    (hd : ∃ j < J, ∃ k < N, ¬ g ∣ (d j k).toNat) (φ : (ℕ → Torus) → ℝ)
    (hφ : ∀ y z, (∀ k < N, y k = z k) → φ y = φ z) (B : ℝ)
    (hB : ∀ y, avg (fun u : Fin N → Torus => φ (bump (g : Torus) y u)) ≤ B) (Y : ℕ → Torus) :
    avg (fun x : Fin J → Fin N → Torus => φ fun k => Y k + linMask N d x k) ≤ B := by
  set l : (Fin J → Fin N → Torus) → (Fin N → Torus) := fun x k => linMask N d x k with hl
  have e1 : ∀ x, φ (fun k => Y k + linMask N d x k) = (fun v : Fin N → Torus => φ fun k => Y k + polyOf v k) (l x) := by
    intro x
    refine hφ _ _ fun k hk => ?_
    unfold polyOf
    rw [dif_pos hk]
  simp only [e1]
  rw [avg_reach l (fun x y => funext fun k => linMask_add N d x y k) (fun (u : Fin N → Torus) k => (g : Torus) * u k) ?_
    (fun v : Fin N → Torus => φ fun k => Y k + polyOf v k)]
  · refine avg_le fun m => ?_
    refine le_trans (le_of_eq (congrArg avg ?_)) (hB fun k => Y k + polyOf (l m) k)
    funext u
    refine hφ _ _ fun k hk => ?_
    unfold bump
    rw [polyOf_add, add_assoc]
    congr 2
    unfold polyOf
    rw [dif_pos hk, dif_pos hk]
  · intro u
    obtain ⟨j, hj, k, hk, h32⟩ := hd
    obtain ⟨m, hm⟩ : ∃ m : ℕ → Torus, ∀ i < 2 ^ n, negMul (2 ^ n) (d j) m i = (g : Torus) * polyOf u i := by
      rcases hg with rfl | rfl
      · exact negMul_surj n hn 5 (d j) ⟨k, hN ▸ hk, h32⟩ (polyOf u)
      · exact negMul_surj n hn 6 (d j) ⟨k, hN ▸ hk, h32⟩ (polyOf u)
    refine ⟨Pi.single ⟨j, hj⟩ fun k => m k, funext fun i => ?_⟩
    show linMask N d _ i = _
    unfold linMask
    rw [sum_eq_single (⟨j, hj⟩ : Fin J)]
    · rw [Pi.single_eq_same]
      have h1 : negMul N (d j) (polyOf fun k : Fin N => m k) i = negMul N (d j) m i := by
        refine negMul_congr N _ _ _ _ (fun _ _ => rfl) (fun a ha => ?_) i i.isLt
        unfold polyOf
        rw [dif_pos ha]
      rw [h1]
      have h2 := hm i (hN ▸ i.isLt)
      rw [← hN] at h2
      rw [h2, polyOf_fin]
    · intro b _ hb
      rw [Pi.single_eq_of_ne hb, polyOf_zero, negMul_zero_right]
    · intro h
      exact absurd (mem_univ _) h

theorem mgf_dif' (g : ℕ) (hg : g = 32 ∨ g = 64) {N n : ℕ} (hN : N = 2 ^ n) (a : ℤ) (ha : 0 < a) (ha2 : a < 2 * N) (cf : ℕ → ℤ) (θ : ℝ) (h0 : 0 ≤ θ)
    (h1 : 2 * θ * 8320 ≤ 1) (y : ℕ → Torus) :
    avg (fun u : Fin N → Torus => Real.exp (θ * ∑ k ∈ range N, ((lowUp (cf k) (dif N a (bump (g : Torus) y u) k) : ℤ) : ℝ)))
      ≤ Real.exp (((range N).filter fun k => cf k ≠ 0).card * ((128 + g : ℕ) * θ + 2 * 8320 ^ 2 * θ ^ 2)) := by
  subst hN
  have := mgf_dif g hg n a ha ha2 (fun k => cf k) θ h0 h1 y
  have hc : (univ.filter fun k : Fin (2 ^ n) => cf k ≠ 0).card = ((range (2 ^ n)).filter fun k => cf k ≠ 0).card := by
    rw [card_filter, card_filter, Fin.sum_univ_eq_sum_range (fun k => if cf k ≠ 0 then 1 else 0)]
  rw [hc] at this
  refine le_trans (le_of_eq (congrArg avg ?_)) this
  funext u
  rw [Fin.sum_univ_eq_sum_range (fun k => ((lowUp (cf k) (dif (2 ^ n) a (bump (g : Torus) y u) k) : ℤ) : ℝ))]

theorem bad_dif' (g : ℕ) (hg : g = 32 ∨ g = 64) {N n : ℕ} (hN : N = 2 ^ n) (hn : 1 ≤ n) (a : ℤ) (ha : 0 < a) (ha2 : a < 2 * N) (off : Torus)
    (y : ℕ → Torus) :
    avg (fun u : Fin N → Torus => if ∀ k < N, topBad off (dif N a (bump (g : Torus) y u) k) then (1 : ℝ) else 0)
      ≤ (1 / 2) ^ 2 ^ (n - 1) := by
  subst hN
  refine le_trans (le_of_eq (congrArg avg ?_)) (bad_dif g hg n hn a ha ha2 off y)
  funext u
  congr 1
  exact propext ⟨fun h k => h k k.isLt, fun h k hk => h ⟨k, hk⟩⟩

theorem dif_congr (N : ℕ) (hN : 0 < N) (a : ℤ) (y z : ℕ → Torus) (h : ∀ k < N, y k = z k) (k : ℕ) (hk : k < N) :
    dif N a y k = dif N a z k := by
  unfold dif
  rw [extG_congr compl N hN y z h, h k hk]

/-! ### The accumulator -/

section

variable (P : Params) (L : FourierLaws O) (k0 k1 : List Torus) (R : KeyGenRand) (tv : Trlwe) (c : List Torus)

theorem bskM_getD (ω : KeyMasks P) (i : ℕ) (hi : i < P.tlweLv0.N) :
    (bskM P L k0 k1 R ω).getD i [] = (gswOf P L k0 k1 R ω i).map fun r => ⟨L.T r.A, L.T r.B⟩ := by
  unfold bskM
  rw [List.getD_eq_getElem?_getD, getElem?_tab, if_pos hi]
  rfl

theorem gswOf_isTrgsw (ω : KeyMasks P) (i : ℕ) :
    IsTrgsw P.trgswLv1.N P.trgswLv1.L P.trgswLv1.BGBIT (gswOf P L k0 k1 R ω i) (at' k0 i) k1
      (fun j k => f64ToTorus (R.bskSample i j k) + encErr P L k1 (maskDraw ω i) j k) :=
  isTrgsw_gswRow P L (at' k0 i) k1 (maskDraw ω i) (R.bskSample i)

theorem bskM_isFft (ω : KeyMasks P) (i : ℕ) (hi : i < P.tlweLv0.N) :
    IsFft L (gswOf P L k0 k1 R ω i) ((bskM P L k0 k1 R ω).getD i []) :=
  bskM_getD P L k0 k1 R ω i hi

/-- The accumulator with the masks `ω`. -/
def accM (ω : KeyMasks P) (i : ℕ) : Trlwe :=
  blindAcc P L (gadgetOffset P.trgswLv1.BGBIT P.trgswLv1.L) (bskM P L k0 k1 R ω) tv c i

/-- The input of the external product of step `i`. -/
def inM (ω : KeyMasks P) (i : ℕ) : Trlwe :=
  stepIn P L (gadgetOffset P.trgswLv1.BGBIT P.trgswLv1.L) (bskM P L k0 k1 R ω) tv c i

theorem maskDraw_update (ω : KeyMasks P) (i : Fin P.tlweLv0.N) (x : EntryMask P) (r : ℕ) (h : r ≠ i) :
    maskDraw (Function.update ω i x) r = maskDraw ω r := by
  funext j k
  unfold maskDraw
  split_ifs with h1 h2
  · rw [Function.update_of_ne (fun e => h (congrArg Fin.val e))]
  · rfl
  · rfl

theorem accM_past (ω : KeyMasks P) (i : Fin P.tlweLv0.N) (x : EntryMask P) (t : ℕ) (ht : t ≤ (i : ℕ)) :
    accM P L k0 k1 R tv c (Function.update ω i x) t = accM P L k0 k1 R tv c ω t := by
  have hi := i.isLt
  refine blindAcc_congr P L _ _ _ tv c t fun r hr => ?_
  rw [bskM_getD _ _ _ _ _ _ _ (by omega), bskM_getD _ _ _ _ _ _ _ (by omega)]
  unfold gswOf
  rw [maskDraw_update P ω i x r (by omega)]

theorem inM_past (ω : KeyMasks P) (i : Fin P.tlweLv0.N) (x : EntryMask P) (t : ℕ) (ht : t ≤ (i : ℕ)) :
    inM P L k0 k1 R tv c (Function.update ω i x) t = inM P L k0 k1 R tv c ω t := by
  have := accM_past P L k0 k1 R tv c ω i x t ht
  unfold accM at this
  unfold inM stepIn
  rw [this]

theorem inM_A (ω : KeyMasks P) (i k : ℕ) (hk : k < P.trgswLv1.N) :
    at' (inM P L k0 k1 R tv c ω i).A k
      = dif P.trgswLv1.N (aTilda P.trgswLv1.NBIT (at' c i)) (at' (accM P L k0 k1 R tv c ω i).A) k := by
  unfold inM stepIn Trlwe.sub rot accM
  simp only
  rw [at'_tab _ _ _ hk, at'_tab _ _ _ hk]
  rfl

theorem inM_B (ω : KeyMasks P) (i k : ℕ) (hk : k < P.trgswLv1.N) :
    at' (inM P L k0 k1 R tv c ω i).B k
      = dif P.trgswLv1.N (aTilda P.trgswLv1.NBIT (at' c i)) (at' (accM P L k0 k1 R tv c ω i).B) k := by
  unfold inM stepIn Trlwe.sub rot accM
  simp only
  rw [at'_tab _ _ _ hk, at'_tab _ _ _ hk]
  rfl

theorem dif_zero (N : ℕ) (y : ℕ → Torus) (k : ℕ) (hk : k < N) : dif N 0 y k = 0 := by
  unfold dif
  rw [sub_zero, extG_of_lt compl N y k hk, sub_self]

/-- The digits of step `i`. -/
def digM (ω : KeyMasks P) (i j : ℕ) : ℕ → Torus :=
  at' (digitPoly P (gadgetOffset P.trgswLv1.BGBIT P.trgswLv1.L) (inM P L k0 k1 R tv c ω i) j)

/-- The constants that the gadget adds to the masks of entry `i`. -/
def gadM (i j k : ℕ) : Torus :=
  if j < P.trgswLv1.L ∧ k = 0 then at' k0 i * ((2 ^ (32 - (j + 1) * P.trgswLv1.BGBIT) : ℕ) : Torus) else 0

theorem gswOf_row (ω : KeyMasks P) (i j : ℕ) (hj : j < P.trgswLv1.L * 2) (k : ℕ)
    (hk : k < P.trgswLv1.N) :
    at' ((gswOf P L k0 k1 R ω i).row j).A k = maskDraw ω i j k + gadM P k0 i j k := by
  have hrow : (gswOf P L k0 k1 R ω i).row j = gswRow P L (at' k0 i) k1 (maskDraw ω i) (R.bskSample i) j := by
    unfold Trgsw.row gswOf
    rw [List.getD_eq_getElem?_getD, getElem?_tab, if_pos (by omega)]; rfl
  rw [hrow]
  unfold gswRow zeroRow gadM
  simp only
  by_cases h : j < P.trgswLv1.L
  · rw [if_pos h]
    simp only
    rw [at'_of_lt _ _ (by simp; omega), List.getElem_set]
    by_cases h0 : k = 0
    · subst h0
      rw [if_pos rfl, if_pos ⟨h, rfl⟩, at'_tab _ _ _ hk]
    · rw [if_neg (by omega), if_neg (fun h' => h0 h'.2), add_zero, getElem_tab]
  · rw [if_neg h, if_neg (fun h' => h h'.1), add_zero]
    simp only
    rw [at'_tab _ _ _ hk]

/-- One step of the mask of the accumulator. -/
theorem accM_next (ω : KeyMasks P) (i : ℕ) (hi : i < P.tlweLv0.N) (k : ℕ) (hk : k < P.trgswLv1.N) :
    at' (accM P L k0 k1 R tv c ω (i + 1)).A k
      = at' (accM P L k0 k1 R tv c ω i).A k
        + (∑ j ∈ range (P.trgswLv1.L * 2), negMul P.trgswLv1.N (digM P L k0 k1 R tv c ω i j) (gadM P k0 i j) k)
        + linMask P.trgswLv1.N (digM P L k0 k1 R tv c ω i) (ω ⟨i, hi⟩) k
        + backendErrA P L (gadgetOffset P.trgswLv1.BGBIT P.trgswLv1.L) (gswOf P L k0 k1 R ω i)
            ((bskM P L k0 k1 R ω).getD i []) (inM P L k0 k1 R tv c ω i) k := by
  have e1 : at' (accM P L k0 k1 R tv c ω (i + 1)).A k = at' (accM P L k0 k1 R tv c ω i).A k
      + at' (extProd P L (gadgetOffset P.trgswLv1.BGBIT P.trgswLv1.L) ((bskM P L k0 k1 R ω).getD i [])
        (inM P L k0 k1 R tv c ω i)).A k := by
    unfold accM
    conv_lhs => rw [blindAcc]
    unfold cmux Trlwe.add
    simp only
    rw [at'_tab _ _ _ hk]
    rfl
  have e2 : ∑ j ∈ range (P.trgswLv1.L * 2), negMul P.trgswLv1.N (digM P L k0 k1 R tv c ω i j)
      (at' ((gswOf P L k0 k1 R ω i).row j).A) k
      = (∑ j ∈ range (P.trgswLv1.L * 2), negMul P.trgswLv1.N (digM P L k0 k1 R tv c ω i j) (gadM P k0 i j) k)
        + linMask P.trgswLv1.N (digM P L k0 k1 R tv c ω i) (ω ⟨i, hi⟩) k := by
    have e3 : linMask P.trgswLv1.N (digM P L k0 k1 R tv c ω i) (ω ⟨i, hi⟩) k
        = ∑ j ∈ range (P.trgswLv1.L * 2), negMul P.trgswLv1.N (digM P L k0 k1 R tv c ω i j) (maskDraw ω i j) k := by
      unfold linMask
      rw [← Fin.sum_univ_eq_sum_range (fun j => negMul P.trgswLv1.N (digM P L k0 k1 R tv c ω i j) (maskDraw ω i j) k)]
      refine sum_congr rfl fun j _ => ?_
      congr 1
      funext m
      unfold maskDraw
      rw [dif_pos hi, dif_pos j.isLt]
    rw [e3, ← sum_add_distrib]
    refine sum_congr rfl fun j hj => ?_
    rw [← negMul_add_right]
    refine negMul_congr _ _ _ _ _ (fun _ _ => rfl) (fun m hm => ?_) k hk
    rw [gswOf_row P L k0 k1 R ω i j (mem_range.1 hj) m hm, add_comm]
  rw [e1, add_assoc, add_assoc, ← add_assoc (∑ j ∈ _, _), ← e2]
  unfold backendErrA digM
  ring

theorem accM_sized (ω : KeyMasks P) (i : ℕ) :
    (accM P L k0 k1 R tv c ω i).A.length = P.trgswLv1.N ∧ (accM P L k0 k1 R tv c ω i).B.length = P.trgswLv1.N := by
  unfold accM
  cases i with
  | zero => simp [blindAcc, rot]
  | succ i => simp [blindAcc, cmux, Trlwe.add]


/-- If all digits are zero, nothing is added. -/
theorem extProd_zero {P : Params} (L : FourierLaws O) (hd : O.deg = P.trgswLv1.N)
    (hacc : L.Accurate (P.trgswLv1.L * 2) 0 0) (off : Torus) (t : Trgsw) (g : TrgswF O) (p : Torus) (s : List Torus)
    (err : ℕ → ℕ → Torus) (ht : IsTrgsw P.trgswLv1.N P.trgswLv1.L P.trgswLv1.BGBIT t p s err) (hg : IsFft L t g)
    (c : Trlwe) (hz : ∀ i < P.trgswLv1.L * 2, ∀ j, at' (digitPoly P off c i) j = 0) (k : ℕ) (hk : k < P.trgswLv1.N) :
    at' (extProd P L off g c).A k = 0 ∧ at' (extProd P L off g c).B k = 0 := by
  have hrowA : ∀ i < P.trgswLv1.L * 2, L.rowA g i = L.T (t.row i).A := by
    intro i hi
    have h : i < t.length := by rw [ht.rows]; omega
    rw [row_getElem t i h]
    unfold FourierLaws.rowA
    rw [hg, List.getElem?_map, List.getElem?_eq_getElem h]; rfl
  have hrowB : ∀ i < P.trgswLv1.L * 2, L.rowB g i = L.T (t.row i).B := by
    intro i hi
    have h : i < t.length := by rw [ht.rows]; omega
    rw [row_getElem t i h]
    unfold FourierLaws.rowB
    rw [hg, List.getElem?_map, List.getElem?_eq_getElem h]; rfl
  have hsz : ∀ i < P.trgswLv1.L * 2, (t.row i).A.length = O.deg ∧ (t.row i).B.length = O.deg := by
    intro i hi
    have h : i < t.length := by rw [ht.rows]; omega
    rw [row_getElem t i h, hd]
    exact ⟨ht.sizedA _ (List.getElem_mem h), ht.sizedB _ (List.getElem_mem h)⟩
  have hz0 : ∀ v : ℕ → ℕ → Torus, ∑ i ∈ range (P.trgswLv1.L * 2), negMul P.trgswLv1.N (at' (digitPoly P off c i)) (v i) k = 0 := by
    intro v
    refine sum_eq_zero fun i hi => ?_
    rw [show at' (digitPoly P off c i) = fun _ => 0 from funext fun j => hz i (mem_range.1 hi) j,
      negMul_comm P.trgswLv1.N _ _ k hk, negMul_zero_right]
  have h0 : ∀ x : Torus, nrm x ≤ 0 → x = 0 := by
    intro x hx
    have : x.toInt = 0 := by unfold nrm at hx; omega
    rw [← toInt_cast x, this]; rfl
  constructor
  · have := hacc (tab (P.trgswLv1.L * 2) fun i => (digitPoly P off c i, (t.row i).A)) (by simp) (by
      intro q hq
      obtain ⟨i, hi, rfl⟩ := List.mem_map.1 hq
      have hi := List.mem_range.1 hi
      exact ⟨by simp [hd], (hsz i hi).1, fun j => by rw [hz i hi j]; decide⟩) k (by omega)
    rw [← L.mac_eq_accum (digitPoly P off c) (fun i => (t.row i).A), map_tab, sum_tab, hd,
      ← L.mac_congr _ _ _ _ hrowA] at this
    simp only at this
    rw [hz0 (fun i => at' (t.row i).A), sub_zero] at this
    exact h0 _ this
  · have := hacc (tab (P.trgswLv1.L * 2) fun i => (digitPoly P off c i, (t.row i).B)) (by simp) (by
      intro q hq
      obtain ⟨i, hi, rfl⟩ := List.mem_map.1 hq
      have hi := List.mem_range.1 hi
      exact ⟨by simp [hd], (hsz i hi).2, fun j => by rw [hz i hi j]; decide⟩) k (by omega)
    rw [← L.mac_eq_accum (digitPoly P off c) (fun i => (t.row i).B), map_tab, sum_tab, hd,
      ← L.mac_congr _ _ _ _ hrowB] at this
    simp only at this
    rw [hz0 (fun i => at' (t.row i).B), sub_zero] at this
    exact h0 _ this

/-- A step whose digits are all zero does nothing. -/
theorem accM_still (hd : O.deg = P.trgswLv1.N) (hacc : L.Accurate (P.trgswLv1.L * 2) 0 0) (ω : KeyMasks P) (i : ℕ)
    (hi : i < P.tlweLv0.N) (h : ∀ j < P.trgswLv1.L * 2, ∀ k < P.trgswLv1.N,
      at' (digitPoly P (gadgetOffset P.trgswLv1.BGBIT P.trgswLv1.L) (inM P L k0 k1 R tv c ω i) j) k = 0) :
    accM P L k0 k1 R tv c ω (i + 1) = accM P L k0 k1 R tv c ω i := by
  have hz : ∀ j < P.trgswLv1.L * 2, ∀ k,
      at' (digitPoly P (gadgetOffset P.trgswLv1.BGBIT P.trgswLv1.L) (inM P L k0 k1 R tv c ω i) j) k = 0 := by
    intro j hj k
    by_cases hk : k < P.trgswLv1.N
    · exact h j hj k hk
    · unfold at'; rw [List.getD_eq_getElem?_getD, List.getElem?_eq_none (by simp; omega)]; rfl
  have hE := extProd_zero L hd hacc (gadgetOffset P.trgswLv1.BGBIT P.trgswLv1.L) _ _ _ _ _
    (gswOf_isTrgsw P L k0 k1 R ω i) (bskM_isFft P L k0 k1 R ω i hi) _ hz
  have hs := accM_sized P L k0 k1 R tv c ω i
  have e1 : accM P L k0 k1 R tv c ω (i + 1) = Trlwe.add P.trgswLv1.N (accM P L k0 k1 R tv c ω i)
      (extProd P L (gadgetOffset P.trgswLv1.BGBIT P.trgswLv1.L) ((bskM P L k0 k1 R ω).getD i [])
        (inM P L k0 k1 R tv c ω i)) := rfl
  rw [e1]
  unfold Trlwe.add
  have e2 : ∀ x : Trlwe, x = ⟨x.A, x.B⟩ := fun x => rfl
  conv_rhs => rw [e2 (accM P L k0 k1 R tv c ω i)]
  congr 1
  · refine (eq_tab_of _ _ _ hs.1 fun k hk => ?_).symm
    have hk' : k < P.trgswLv1.N := by rw [← hs.1]; exact hk
    rw [← at'_of_lt _ _ hk, (hE k hk').1, add_zero]
  · refine (eq_tab_of _ _ _ hs.2 fun k hk => ?_).symm
    have hk' : k < P.trgswLv1.N := by rw [← hs.2]; exact hk
    rw [← at'_of_lt _ _ hk, (hE k hk').2, add_zero]

/-- Without a rotation a step does nothing. -/
theorem accM_skip (hd : O.deg = P.trgswLv1.N) (hacc : L.Accurate (P.trgswLv1.L * 2) 0 0)
    (hL : P.trgswLv1.L = 3) (hb : P.trgswLv1.BGBIT = 6) (ω : KeyMasks P) (i : ℕ) (hi : i < P.tlweLv0.N)
    (h : aTilda P.trgswLv1.NBIT (at' c i) = 0) :
    accM P L k0 k1 R tv c ω (i + 1) = accM P L k0 k1 R tv c ω i := by
  have hA : ∀ k < P.trgswLv1.N, at' (inM P L k0 k1 R tv c ω i).A k = 0 := fun k hk => by
    rw [inM_A P L k0 k1 R tv c ω i k hk, h, dif_zero _ _ _ hk]
  have hB : ∀ k < P.trgswLv1.N, at' (inM P L k0 k1 R tv c ω i).B k = 0 := fun k hk => by
    rw [inM_B P L k0 k1 R tv c ω i k hk, h, dif_zero _ _ _ hk]
  have hdg : ∀ j < 3, digit (0 + gadgetOffset 6 3) 6 j = 0 := by decide +kernel
  refine accM_still P L k0 k1 R tv c hd hacc ω i hi fun j hj k hk => ?_
  by_cases h : j < P.trgswLv1.L
  · rw [digitPoly_lo P _ _ j k h hk, hA k hk, hL, hb]
    exact hdg j (by omega)
  · obtain ⟨j', rfl⟩ : ∃ j', j = j' + P.trgswLv1.L := ⟨j - P.trgswLv1.L, by omega⟩
    rw [digitPoly_hi P _ _ j' k hk, hB k hk, hL, hb]
    exact hdg j' (by omega)

theorem accM_skips (hd : O.deg = P.trgswLv1.N) (hacc : L.Accurate (P.trgswLv1.L * 2) 0 0)
    (hL : P.trgswLv1.L = 3) (hb : P.trgswLv1.BGBIT = 6) (ω : KeyMasks P) (q t : ℕ) (hqt : q ≤ t) (ht : t ≤ P.tlweLv0.N)
    (h : ∀ i, q ≤ i → i < t → aTilda P.trgswLv1.NBIT (at' c i) = 0) :
    accM P L k0 k1 R tv c ω t = accM P L k0 k1 R tv c ω q := by
  induction t, hqt using Nat.le_induction with
  | base => rfl
  | succ t hqt ih =>
    rw [accM_skip P L k0 k1 R tv c hd hacc hL hb ω t (by omega) (h t hqt (by omega)),
      ih (by omega) fun i h1 h2 => h i h1 (by omega)]

/-! ### The chain -/

/-- Some digit of step `i` is not a multiple of `g`. -/
def GoodM (g : ℕ) (ω : KeyMasks P) (i : ℕ) : Prop :=
  ∃ j < P.trgswLv1.L * 2, ∃ k < P.trgswLv1.N, ¬ g ∣ (digM P L k0 k1 R tv c ω i j k).toNat

/-- Whether step `i` rotates. -/
def nzM (i : ℕ) : Prop := i < P.tlweLv0.N ∧ aTilda P.trgswLv1.NBIT (at' c i) ≠ 0

/-- The factors of the lost bits of step `i`. -/
def cfM (σ : ℤ) (i k : ℕ) : ℤ :=
  σ * ((at' k0 i).toNat * waveCoef P.trgswLv1.N k1 (accExp P c k0 P.tlweLv0.N - accExp P c k0 (i + 1)) k)

/-- The lost bits of step `i`, less their mean. -/
def fluctM (σ : ℤ) (ω : KeyMasks P) (i : ℕ) : ℤ :=
  ∑ k ∈ range P.trgswLv1.N, cfM P k0 k1 c σ i k * ((low (at' (inM P L k0 k1 R tv c ω i).A k) : ℤ) - 8192)

theorem cfM_cases (hk0 : IsBinary k0) (hk1 : IsBinary k1) (σ : ℤ) (hσ : σ = 1 ∨ σ = -1) (i k : ℕ) :
    cfM P k0 k1 c σ i k = 1 ∨ cfM P k0 k1 c σ i k = -1 ∨ cfM P k0 k1 c σ i k = 0 := by
  unfold cfM
  rcases hσ with rfl | rfl <;> rcases isBinary_at' hk0 i with h | h <;>
    rcases waveCoef_cases P.trgswLv1.N k1 hk1 (accExp P c k0 P.tlweLv0.N - accExp P c k0 (i + 1)) k with h' | h' | h' <;>
    rw [h, h'] <;> decide

theorem card_cfM (hN : 0 < P.trgswLv1.N) (hk0 : IsBinary k0) (hk1 : IsBinary k1) (σ : ℤ) (i : ℕ) :
    ((range P.trgswLv1.N).filter fun k => cfM P k0 k1 c σ i k ≠ 0).card
      ≤ (at' k0 i).toNat * weight P.trgswLv1.N k1 := by
  rcases isBinary_at' hk0 i with h | h
  · have : ((range P.trgswLv1.N).filter fun k => cfM P k0 k1 c σ i k ≠ 0) = ∅ := by
      refine filter_eq_empty_iff.2 fun k _ h' => h' ?_
      unfold cfM
      rw [h]
      simp
    rw [this]
    simp
  · rw [h, ← card_waveCoef P.trgswLv1.N hN k1 hk1 (accExp P c k0 P.tlweLv0.N - accExp P c k0 (i + 1)), card_filter]
    rw [show (1 : Torus).toNat = 1 from rfl, one_mul]
    refine sum_le_sum fun k _ => ?_
    split_ifs with h'
    · have : waveCoef P.trgswLv1.N k1 (accExp P c k0 P.tlweLv0.N - accExp P c k0 (i + 1)) k ≠ 0 := by
        intro h0
        apply h'
        unfold cfM
        rw [h0]
        simp
      omega
    · exact Nat.zero_le _

theorem topBad_of_dvd (x δ : Torus) (hδ : nrm δ ≤ 64) (h : 32 ∣ (digit (x + δ + gadgetOffset 6 3) 6 0).toNat) :
    topBad (gadgetOffset 6 3) x := by
  have h0 := toInt_small δ hδ
  set y := x + δ + gadgetOffset 6 3 with hy
  have h1 : x + gadgetOffset 6 3 + 64 = y + (64 - δ) := by rw [hy]; ring
  unfold topBad
  rw [h1, BitVec.toNat_add, BitVec.toNat_sub]
  rw [digit_eq y 6 0 (by norm_num) (by norm_num)] at h
  have hd := δ.isLt
  have hyl := y.isLt
  have h64 : (64 : Torus).toNat = 64 := rfl
  rw [h64]
  have h2 : y.toNat / 2 ^ (32 - (0 + 1) * 6) % 2 ^ 6 = y.toNat / 67108864 % 64 := by norm_num
  rw [h2] at h
  have h3 : y.toNat / 67108864 % 64 < 64 := Nat.mod_lt _ (by norm_num)
  have h4 : y.toNat / 67108864 % 64 = 0 ∨ y.toNat / 67108864 % 64 = 32 := by
    generalize y.toNat / 67108864 % 64 = u at *
    rw [natCast_eq, natCast_eq, BitVec.toNat_sub] at h
    simp only [BitVec.toNat_ofNat] at h
    norm_num at h
    omega
  clear h h1 h2
  generalize y.toNat = Y at *
  generalize δ.toNat = D at *
  omega

variable (σ : ℤ) (g τ : ℕ)

open Classical in
/-- The blind rotation as a chain, from step `τ` on. -/
noncomputable def lostChain (hd : O.deg = P.trgswLv1.N) (hacc : L.Accurate (P.trgswLv1.L * 2) 0 0)
    (hL : P.trgswLv1.L = 3) (hb : P.trgswLv1.BGBIT = 6)
    (hfirst : ∀ ω i, τ ≤ i → nzM P c i → (∀ q, τ ≤ q → q < i → ¬ nzM P c q) →
      accM P L k0 k1 R tv c ω i = accM P L k0 k1 R tv c ω τ → GoodM P L k0 k1 R tv c g ω i) :
    Chain P.tlweLv0.N (EntryMask P) where
  nz t := τ ≤ t ∧ nzM P c t
  X t ω := if τ ≤ t ∧ nzM P c t then (fluctM P L k0 k1 R tv c σ ω t : ℝ) else 0
  G t ω := τ ≤ t ∧ nzM P c t → GoodM P L k0 k1 R tv c g ω t
  X_past := by
    intro t ω i x h
    unfold fluctM
    rw [inM_past P L k0 k1 R tv c ω i x t h]
  G_past := by
    intro t ω i x h
    unfold GoodM digM
    rw [inM_past P L k0 k1 R tv c ω i x t h]
  X_zero := fun t ω h => if_neg h
  G_zero := fun t ω h h' => absurd h' h
  G_first := by
    intro t ω h h1 _
    refine hfirst ω t h.1 h.2 (fun q h0 h2 h3 => h1 q h2 ⟨h0, h3⟩) (accM_skips P L k0 k1 R tv c hd hacc hL hb ω τ t h.1 h.2.1.le fun i h0 h2 => ?_)
    by_contra h3
    exact h1 i h2 ⟨h0, h2.trans h.2.1, h3⟩

/-- One step, on average over the masks of the last active step. -/
theorem lostStep (W : WellFormed P) (hd : O.deg = P.trgswLv1.N) (hacc0 : L.Accurate (P.trgswLv1.L * 2) 0 0)
    {D : ℕ} (hD : D ≤ 32) (hacc : L.Accurate (P.trgswLv1.L * 2) (2 ^ (P.trgswLv1.BGBIT - 1)) D)
    (hL : P.trgswLv1.L = 3) (hb : P.trgswLv1.BGBIT = 6) (t q : ℕ) (hq : q < P.tlweLv0.N) (hqt : q < t)
    (ht : nzM P c t) (hmid : ∀ r, q < r → r < t → ¬ nzM P c r) (ω : KeyMasks P) :
    ∃ Y : ℕ → Torus, ∀ x : EntryMask P, ∀ k < P.trgswLv1.N, ∃ δ, nrm δ ≤ 64 ∧
      at' (inM P L k0 k1 R tv c (Function.update ω ⟨q, hq⟩ x) t).A k
        = dif P.trgswLv1.N (aTilda P.trgswLv1.NBIT (at' c t))
            (fun i => Y i + linMask P.trgswLv1.N (digM P L k0 k1 R tv c ω q) x i) k + δ := by
  have hN : 0 < P.trgswLv1.N := by have := W.min_degree; omega
  refine ⟨fun k => at' (accM P L k0 k1 R tv c ω q).A k
    + (∑ j ∈ range (P.trgswLv1.L * 2), negMul P.trgswLv1.N (digM P L k0 k1 R tv c ω q j) (gadM P k0 q j) k), ?_⟩
  intro x k hk
  set ω' := Function.update ω ⟨q, hq⟩ x with hω'
  set ε := backendErrA P L (gadgetOffset P.trgswLv1.BGBIT P.trgswLv1.L) (gswOf P L k0 k1 R ω' q)
            ((bskM P L k0 k1 R ω').getD q []) (inM P L k0 k1 R tv c ω' q) with hε
  have hεle : ∀ i < P.trgswLv1.N, nrm (ε i) ≤ D := fun i hi =>
    (nrm_backendErr W L hd hacc _ _ _ _ _ _ (gswOf_isTrgsw P L k0 k1 R ω' q) (bskM_isFft P L k0 k1 R ω' q hq) _ i hi).1
  rw [inM_A P L k0 k1 R tv c ω' t k hk]
  have e1 : accM P L k0 k1 R tv c ω' t = accM P L k0 k1 R tv c ω' (q + 1) :=
    accM_skips P L k0 k1 R tv c hd hacc0 hL hb ω' (q + 1) t hqt ht.1.le fun i h1 h2 => by
      by_contra h3
      exact hmid i h1 h2 ⟨h2.trans ht.1, h3⟩
  have edig : digM P L k0 k1 R tv c ω' q = digM P L k0 k1 R tv c ω q := by
    funext j
    unfold digM
    rw [hω', inM_past P L k0 k1 R tv c ω ⟨q, hq⟩ x q le_rfl]
  have e2 : ∀ i < P.trgswLv1.N, at' (accM P L k0 k1 R tv c ω' t).A i
      = (at' (accM P L k0 k1 R tv c ω q).A i
          + (∑ j ∈ range (P.trgswLv1.L * 2), negMul P.trgswLv1.N (digM P L k0 k1 R tv c ω q j) (gadM P k0 q j) i)
          + linMask P.trgswLv1.N (digM P L k0 k1 R tv c ω q) x i) + ε i := by
    intro i hi
    rw [e1, accM_next P L k0 k1 R tv c ω' q hq i hi, edig]
    have : accM P L k0 k1 R tv c ω' q = accM P L k0 k1 R tv c ω q := accM_past P L k0 k1 R tv c ω ⟨q, hq⟩ x q le_rfl
    rw [this, hω', Function.update_self]
  rw [dif_congr P.trgswLv1.N hN _ _ _ e2 k hk]
  obtain ⟨δ, h1, h2⟩ := dif_near P.trgswLv1.N hN (aTilda P.trgswLv1.NBIT (at' c t)) (fun i => at' (accM P L k0 k1 R tv c ω q).A i
          + (∑ j ∈ range (P.trgswLv1.L * 2), negMul P.trgswLv1.N (digM P L k0 k1 R tv c ω q j) (gadM P k0 q j) i)
          + linMask P.trgswLv1.N (digM P L k0 k1 R tv c ω q) x i) ε k hk D hεle
  exact ⟨δ, by omega, h2⟩


theorem fluctM_le (hN : 0 < P.trgswLv1.N) (hk0 : IsBinary k0) (hk1 : IsBinary k1) (hσ : σ = 1 ∨ σ = -1)
    (ω : KeyMasks P) (i : ℕ) : fluctM P L k0 k1 R tv c σ ω i ≤ 8192 * weight P.trgswLv1.N k1 := by
  have h1 : fluctM P L k0 k1 R tv c σ ω i
      ≤ ∑ k ∈ range P.trgswLv1.N, 8192 * if cfM P k0 k1 c σ i k ≠ 0 then (1 : ℤ) else 0 := by
    refine sum_le_sum fun k _ => ?_
    have hl : low (at' (inM P L k0 k1 R tv c ω i).A k) < 16384 := Nat.mod_lt _ (by norm_num)
    generalize low (at' (inM P L k0 k1 R tv c ω i).A k) = u at hl
    rcases cfM_cases P k0 k1 c hk0 hk1 σ hσ i k with h | h | h <;> rw [h]
    · rw [if_pos (by norm_num)]; omega
    · rw [if_pos (by norm_num)]; omega
    · rw [if_neg (by norm_num)]; omega
  have h2 := card_cfM P k0 k1 c hN hk0 hk1 σ i
  rw [card_filter] at h2
  have h3 : (at' k0 i).toNat ≤ 1 := by rcases isBinary_at' hk0 i with h | h <;> rw [h] <;> decide
  have h4 : (at' k0 i).toNat * weight P.trgswLv1.N k1 ≤ weight P.trgswLv1.N k1 := by nlinarith
  rw [← mul_sum] at h1
  have h5 : (∑ k ∈ range P.trgswLv1.N, if cfM P k0 k1 c σ i k ≠ 0 then (1 : ℤ) else 0)
      = ((∑ k ∈ range P.trgswLv1.N, if cfM P k0 k1 c σ i k ≠ 0 then 1 else 0 : ℕ) : ℤ) := by
    push_cast; rfl
  rw [h5] at h1
  omega

theorem nzM_range (W : WellFormed P) {i : ℕ} (h : nzM P c i) :
    0 < aTilda P.trgswLv1.NBIT (at' c i) ∧ aTilda P.trgswLv1.NBIT (at' c i) < 2 * P.trgswLv1.N := by
  obtain ⟨_, _, ⟨h1, h2, _⟩, _⟩ := modswitch_core W (at' c i)
  have := h.2
  omega

open Classical in
/-- The lost bits of all steps are unlikely to deviate much from their mean. -/
theorem lost_tail (hg : g = 32 ∨ g = 64) (W : WellFormed P) (hd : O.deg = P.trgswLv1.N) (hacc0 : L.Accurate (P.trgswLv1.L * 2) 0 0)
    {D : ℕ} (hD : D ≤ 32) (hacc : L.Accurate (P.trgswLv1.L * 2) (2 ^ (P.trgswLv1.BGBIT - 1)) D)
    (hL : P.trgswLv1.L = 3) (hb : P.trgswLv1.BGBIT = 6) (hk0 : IsBinary k0) (hk1 : IsBinary k1)
    (hfirst : ∀ ω i, τ ≤ i → nzM P c i → (∀ q, τ ≤ q → q < i → ¬ nzM P c q) →
      accM P L k0 k1 R tv c ω i = accM P L k0 k1 R tv c ω τ → GoodM P L k0 k1 R tv c g ω i)
    (hσ : σ = 1 ∨ σ = -1) (lam : ℝ) (hl : 0 ≤ lam) (hl2 : 2 * lam * 8320 ≤ 1) (T : ℝ) :
    avg (fun ω : KeyMasks P => if T ≤ ∑ r ∈ range P.tlweLv0.N,
        (if τ ≤ r ∧ nzM P c r then (fluctM P L k0 k1 R tv c σ ω r : ℝ) else 0) then (1 : ℝ) else 0)
      ≤ Real.exp (-(lam * T) + lam * (8192 * weight P.trgswLv1.N k1)
          + weight P.tlweLv0.N k0 * weight P.trgswLv1.N k1 * ((128 + g : ℕ) * lam + 2 * 8320 ^ 2 * lam ^ 2))
        + P.tlweLv0.N * (1 / 2) ^ 2 ^ (P.trgswLv1.NBIT - 1) := by
  have hN : 0 < P.trgswLv1.N := by have := W.min_degree; omega
  have hn : 1 ≤ P.trgswLv1.NBIT := by
    have h1 := W.min_degree
    have h2 := W.pow2
    by_contra h
    rw [show P.trgswLv1.NBIT = 0 by omega] at h2
    omega
  set q : ℝ := (128 + g : ℕ) * lam + 2 * 8320 ^ 2 * lam ^ 2 with hq
  have hq0 : 0 ≤ q := by positivity
  have key := (lostChain P L k0 k1 R tv c σ g τ hd hacc0 hL hb hfirst).tail lam hl
    (fun t => Real.exp (((at' k0 t).toNat * weight P.trgswLv1.N k1 : ℕ) * q))
    (fun t => Real.one_le_exp (by positivity)) (Real.exp (lam * (8192 * weight P.trgswLv1.N k1)))
    (Real.one_le_exp (by positivity)) ((1 / 2) ^ 2 ^ (P.trgswLv1.NBIT - 1)) (by positivity) ?_ ?_ T
  · refine key.trans (le_of_eq ?_)
    rw [← Real.exp_sum, ← Real.exp_add, ← Real.exp_add, ← sum_mul]
    congr 2
    rw [← add_assoc]
    congr 2
    have : (weight P.tlweLv0.N k0 : ℝ) = ∑ i ∈ range P.tlweLv0.N, ((at' k0 i).toNat : ℝ) := by
      unfold weight; push_cast; rfl
    rw [this, sum_mul]
    refine sum_congr rfl fun i _ => ?_
    push_cast
    rfl
  · intro t _ ω ht _
    have ht : τ ≤ t ∧ nzM P c t := ht
    apply Real.exp_le_exp.2
    refine mul_le_mul_of_nonneg_left ?_ hl
    show (if τ ≤ t ∧ nzM P c t then (fluctM P L k0 k1 R tv c σ ω t : ℝ) else 0) ≤ _
    rw [if_pos ht]
    exact_mod_cast fluctM_le P L k0 k1 R tv c σ hN hk0 hk1 hσ ω t
  · intro t _ r hr hrt ht hnr hmid ω hG
    have htt : τ ≤ t ∧ nzM P c t := ht
    have hnr : τ ≤ r ∧ nzM P c r := hnr
    have ht : nzM P c t := htt.2
    have hG : GoodM P L k0 k1 R tv c g ω r := hG hnr
    obtain ⟨Y, hY⟩ := lostStep P L k0 k1 R tv c W hd hacc0 hD hacc hL hb t r hr hrt ht (fun i h1 h2 h3 => hmid i h1 h2 ⟨hnr.1.trans h1.le, h3⟩) ω
    obtain ⟨ha, ha2⟩ := nzM_range P c W ht
    set a := aTilda P.trgswLv1.NBIT (at' c t) with hadef
    constructor
    · have h1 : ∀ x : EntryMask P, Real.exp (lam * (if τ ≤ t ∧ nzM P c t then
            (fluctM P L k0 k1 R tv c σ (Function.update ω ⟨r, hr⟩ x) t : ℝ) else 0))
          ≤ (fun y : ℕ → Torus => Real.exp (lam * ∑ k ∈ range P.trgswLv1.N,
              ((lowUp (cfM P k0 k1 c σ t k) (dif P.trgswLv1.N a y k) : ℤ) : ℝ)))
              (fun k => Y k + linMask P.trgswLv1.N (digM P L k0 k1 R tv c ω r) x k) := by
        intro x
        apply Real.exp_le_exp.2
        refine mul_le_mul_of_nonneg_left ?_ hl
        rw [if_pos htt]
        unfold fluctM
        rw [Int.cast_sum]
        refine sum_le_sum fun k hk => ?_
        obtain ⟨δ, hδ, e⟩ := hY x k (mem_range.1 hk)
        rw [e]
        exact_mod_cast lowUp_le _ (cfM_cases P k0 k1 c hk0 hk1 σ hσ t k) _ δ hδ
      refine (avg_mono h1).trans (avg_refresh g hg W.pow2 hn _ hG (fun y : ℕ → Torus => Real.exp (lam * ∑ k ∈ range P.trgswLv1.N,
              ((lowUp (cfM P k0 k1 c σ t k) (dif P.trgswLv1.N a y k) : ℤ) : ℝ))) ?_ _ ?_ Y)
      · intro y z h
        refine congrArg Real.exp (congrArg (lam * ·) (sum_congr rfl fun k hk => ?_))
        rw [dif_congr P.trgswLv1.N hN a y z h k (mem_range.1 hk)]
      · intro y
        refine (mgf_dif' g hg W.pow2 a ha ha2 (cfM P k0 k1 c σ t) lam hl hl2 y).trans ?_
        apply Real.exp_le_exp.2
        refine mul_le_mul_of_nonneg_right ?_ hq0
        exact_mod_cast card_cfM P k0 k1 c hN hk0 hk1 σ t
    · have h1 : ∀ x : EntryMask P, (if (lostChain P L k0 k1 R tv c σ g τ hd hacc0 hL hb hfirst).G t (Function.update ω ⟨r, hr⟩ x) then (0 : ℝ) else 1)
          ≤ (fun y : ℕ → Torus => if ∀ k < P.trgswLv1.N, topBad (gadgetOffset 6 3) (dif P.trgswLv1.N a y k) then (1 : ℝ) else 0)
              (fun k => Y k + linMask P.trgswLv1.N (digM P L k0 k1 R tv c ω r) x k) := by
        intro x
        by_cases hgd : (lostChain P L k0 k1 R tv c σ g τ hd hacc0 hL hb hfirst).G t (Function.update ω ⟨r, hr⟩ x)
        · rw [if_pos hgd]
          simp only
          split_ifs <;> norm_num
        · rw [if_neg hgd]
          simp only
          rw [if_pos]
          intro k hk
          obtain ⟨δ, hδ, e⟩ := hY x k hk
          refine topBad_of_dvd _ δ hδ ?_
          rw [← e]
          by_contra h32
          refine hgd fun _ => ⟨0, by omega, k, hk, ?_⟩
          unfold digM
          rw [digitPoly_lo P _ _ 0 k (by omega) hk, hb, hL]
          refine fun h => h32 (dvd_trans ?_ h)
          rcases hg with rfl | rfl <;> norm_num
      refine (avg_mono h1).trans (avg_refresh g hg W.pow2 hn _ hG (fun y : ℕ → Torus =>
        if ∀ k < P.trgswLv1.N, topBad (gadgetOffset 6 3) (dif P.trgswLv1.N a y k) then (1 : ℝ) else 0) ?_ _ ?_ Y)
      · intro y z h
        have e : (∀ k < P.trgswLv1.N, topBad (gadgetOffset 6 3) (dif P.trgswLv1.N a y k))
            ↔ ∀ k < P.trgswLv1.N, topBad (gadgetOffset 6 3) (dif P.trgswLv1.N a z k) :=
          forall_congr' fun k => forall_congr' fun hk => by rw [dif_congr P.trgswLv1.N hN a y z h k hk]
        by_cases hh : ∀ k < P.trgswLv1.N, topBad (gadgetOffset 6 3) (dif P.trgswLv1.N a y k)
        · rw [if_pos hh, if_pos (e.1 hh)]
        · rw [if_neg hh, if_neg (fun h' => hh (e.2 h'))]
      · intro y
        refine le_trans (le_of_eq (congrArg avg ?_)) (bad_dif' g hg W.pow2 hn a ha ha2 (gadgetOffset 6 3) y)
        funext u
        congr

/-- The test vector of the gates. -/
def gateTv (P : Params) : Trlwe := ⟨mkSlice P.trgswLv1.N 0, tab P.trgswLv1.N fun _ => 536870912#32⟩

theorem exists_flip (N : ℕ) (hN : 0 < N) (a b : ℤ) (ha : 0 < a) (ha2 : a < 2 * N) :
    ∃ k < N, ((k - b : ℤ) / N) % 2 ≠ ((k - a - b : ℤ) / N) % 2 := by
  have hN' : (0 : ℤ) < N := by omega
  obtain ⟨z, hz0, hz1, hz2⟩ : ∃ z : ℤ, 0 ≤ z ∧ z < N ∧ (z - a) / N = -1 := by
    by_cases h : a ≤ N
    · refine ⟨0, le_rfl, hN', ?_⟩
      rw [Int.ediv_eq_iff_of_pos hN']
      constructor <;> linarith
    · refine ⟨N - 1, by omega, by omega, ?_⟩
      rw [Int.ediv_eq_iff_of_pos hN']
      constructor <;> linarith
  have h1 := Int.emod_nonneg (z + b) (show (N : ℤ) ≠ 0 by omega)
  have h2 := Int.emod_lt_of_pos (z + b) hN'
  refine ⟨((z + b) % N).toNat, by omega, ?_⟩
  rw [Int.toNat_of_nonneg h1]
  have h3 := Int.emod_add_mul_ediv (z + b) N
  set m := (z + b) / (N : ℤ)
  have e1 : (z + b) % (N : ℤ) - b = z + N * (-m) := by linarith
  have e2 : (z + b) % (N : ℤ) - a - b = (z - a) + N * (-m) := by linarith
  rw [e1, e2, Int.add_mul_ediv_left _ _ (by omega), Int.add_mul_ediv_left _ _ (by omega), hz2,
    Int.ediv_eq_zero_of_lt hz0 hz1]
  omega

/-- The first step that rotates meets a good digit. -/
theorem good_first (W : WellFormed P) (hL : P.trgswLv1.L = 3) (hb : P.trgswLv1.BGBIT = 6) (ω : KeyMasks P) (i : ℕ)
    (hi : nzM P c i) (h : accM P L k0 k1 R (gateTv P) c ω i = accM P L k0 k1 R (gateTv P) c ω 0) :
    GoodM P L k0 k1 R (gateTv P) c 32 ω i := by
  have hN : 0 < P.trgswLv1.N := by have := W.min_degree; omega
  obtain ⟨ha, ha2⟩ := nzM_range P c W hi
  set b := bTilda P.trgswLv1.N P.trgswLv1.NBIT (at' c P.tlweLv0.N) with hbt
  set a := aTilda P.trgswLv1.NBIT (at' c i) with hadef
  obtain ⟨k, hk, hpar⟩ := exists_flip P.trgswLv1.N hN a b ha ha2
  have e0 : ∀ m < P.trgswLv1.N, at' (accM P L k0 k1 R (gateTv P) c ω i).B m
      = (fun m : ℕ => extG compl P.trgswLv1.N (fun _ => 536870912#32) ((m : ℤ) - b)) m := by
    intro m hm
    rw [h]
    show at' (rot P.trgswLv1.N b (gateTv P)).B m = _
    unfold rot gateTv
    simp only
    rw [at'_tab _ _ _ hm]
    exact extG_congr compl _ hN _ _ (fun j hj => at'_tab _ _ _ hj) _
  refine ⟨0 + P.trgswLv1.L, by omega, k, hk, ?_⟩
  unfold digM
  rw [digitPoly_hi P _ _ 0 k hk, inM_B P L k0 k1 R (gateTv P) c ω i k hk, ← hadef, dif_congr _ hN a _ _ e0 k hk, hb, hL]
  unfold dif
  rw [extG_shift compl compl_compl _ hN]
  unfold extG
  simp only
  split_ifs with h1 h2 h2
  · exact absurd (h2.trans h1.symm) hpar
  · decide +kernel
  · decide +kernel
  · exact absurd (by omega) hpar

end

end GoTfhe
