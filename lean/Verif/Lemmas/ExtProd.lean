import Verif.Lemmas.Evaluator
import Verif.Spec.Trgsw
import Mathlib.Tactic.LinearCombination

/-!
# Phases of external products, CMUXes and blind rotations
-/

namespace GoTfhe

variable {O : FourierOps}

theorem nrm_bit {x : Torus} (h : x = 0 ∨ x = 1) : nrm x = x.toNat := by
  rcases h with rfl | rfl <;> rfl

theorem sum_nrm_key (N : ℕ) (s : List Torus) (hs : ∀ i, at' s i = 0 ∨ at' s i = 1) :
    ∑ i ∈ Finset.range N, nrm (at' s i) = weight N s := by
  unfold weight
  exact Finset.sum_congr rfl fun i _ => nrm_bit (hs i)

namespace FourierLaws

theorem mac_eq_accum (L : FourierLaws O) (d r : ℕ → List Torus) (n : ℕ) :
    L.mac d (fun i => L.T (r i)) n = L.accum (tab n fun i => (d i, r i)) := by
  induction n with
  | zero => rfl
  | succ n ih =>
    unfold accum tab at *
    rw [List.range_succ, List.map_append, List.foldl_append, ← ih]
    rfl

theorem mac_congr (L : FourierLaws O) (d : ℕ → List Torus) (g g' : ℕ → O.F) (n : ℕ)
    (h : ∀ i < n, g i = g' i) : L.mac d g n = L.mac d g' n := by
  induction n with
  | zero => rfl
  | succ n ih =>
    simp only [mac]
    rw [ih fun i hi => h i (by omega), h n (by omega)]

end FourierLaws

theorem sum_tab {M : Type*} [AddCommMonoid M] (n : ℕ) (f : ℕ → M) :
    (tab n f).sum = ∑ i ∈ Finset.range n, f i := by
  induction n with
  | zero => rfl
  | succ n ih =>
    unfold tab at *
    rw [List.range_succ, List.map_append, List.sum_append, ih, Finset.sum_range_succ]
    simp

theorem map_tab {α β : Type*} (n : ℕ) (f : ℕ → α) (g : α → β) :
    (tab n f).map g = tab n fun i => g (f i) := by simp [tab]

/-! ### External product -/

/-- Low bits lost by the gadget decomposition: `x mod 2^(32-l*b)`. -/
def lowBits (l b : ℕ) (x : Torus) : Torus := ((x.toNat % 2 ^ (32 - l * b) : ℕ) : Torus)

theorem nrm_lowBits (l b : ℕ) (x : Torus) (h : 1 ≤ l * b) : nrm (lowBits l b x) < 2 ^ (32 - l * b) := by
  unfold lowBits
  have h1 : x.toNat % 2 ^ (32 - l * b) < 2 ^ (32 - l * b) := Nat.mod_lt _ (by positivity)
  have h2 : (2 : ℕ) ^ (32 - l * b) ≤ 2 ^ 31 := Nat.pow_le_pow_right (by norm_num) (by omega)
  have h3 : (((x.toNat % 2 ^ (32 - l * b) : ℕ) : Torus)).toNat = x.toNat % 2 ^ (32 - l * b) := by
    rw [natCast_eq, BitVec.toNat_ofNat, Nat.mod_eq_of_lt]
    generalize (2 : ℕ) ^ (32 - l * b) = m at *
    norm_num at h2 ⊢
    omega
  rw [nrm_eq_toNat _ (by rw [h3]; norm_num at h2; omega), h3]
  exact h1

/-- Errors of the computed sums of products in the two parts of an external product. -/
def backendErrA (P : Params) (L : FourierLaws O) (off : Torus) (t : Trgsw) (g : TrgswF O) (c : Trlwe)
    (k : ℕ) : Torus :=
  at' (extProd P L off g c).A k
    - ∑ i ∈ Finset.range (P.trgswLv1.L * 2), negMul P.trgswLv1.N (at' (digitPoly P off c i)) (at' (t.row i).A) k
def backendErrB (P : Params) (L : FourierLaws O) (off : Torus) (t : Trgsw) (g : TrgswF O) (c : Trlwe)
    (k : ℕ) : Torus :=
  at' (extProd P L off g c).B k
    - ∑ i ∈ Finset.range (P.trgswLv1.L * 2), negMul P.trgswLv1.N (at' (digitPoly P off c i)) (at' (t.row i).B) k

/-- The error of an external product: digits times row errors, minus `p` times the phase of the lost
low bits, plus the phase of the backend errors. -/
def extErr (P : Params) (L : FourierLaws O) (off : Torus) (t : Trgsw) (g : TrgswF O) (p : Torus)
    (s : List Torus) (err : ℕ → ℕ → Torus) (c : Trlwe) (k : ℕ) : Torus :=
  (∑ i ∈ Finset.range (P.trgswLv1.L * 2), negMul P.trgswLv1.N (at' (digitPoly P off c i)) (err i) k)
  - p * (lowBits P.trgswLv1.L P.trgswLv1.BGBIT (at' c.B k)
      - negMul P.trgswLv1.N (fun i => lowBits P.trgswLv1.L P.trgswLv1.BGBIT (at' c.A i)) (at' s) k)
  + (backendErrB P L off t g c k - negMul P.trgswLv1.N (backendErrA P L off t g c) (at' s) k)

theorem digitPoly_lo (P : Params) (off : Torus) (c : Trlwe) (i j : ℕ) (hi : i < P.trgswLv1.L)
    (hj : j < P.trgswLv1.N) :
    at' (digitPoly P off c i) j = digit (at' c.A j + off) P.trgswLv1.BGBIT i := by
  unfold digitPoly; rw [if_pos hi, at'_tab _ _ _ hj]

theorem digitPoly_hi (P : Params) (off : Torus) (c : Trlwe) (i j : ℕ) (hj : j < P.trgswLv1.N) :
    at' (digitPoly P off c (i + P.trgswLv1.L)) j = digit (at' c.B j + off) P.trgswLv1.BGBIT i := by
  unfold digitPoly; rw [if_neg (by omega), at'_tab _ _ _ hj, Nat.add_sub_cancel]

theorem sum_range_two_mul {M : Type*} [AddCommMonoid M] (l : ℕ) (f : ℕ → M) :
    ∑ i ∈ Finset.range (l * 2), f i = ∑ i ∈ Finset.range l, f i + ∑ i ∈ Finset.range l, f (i + l) := by
  rw [show l * 2 = l + l by ring, Finset.sum_range_add]
  congr 1
  exact Finset.sum_congr rfl fun i _ => by rw [add_comm]

/-- Phase of an external product. -/
theorem trPhase_extProd {P : Params} (W : WellFormed P) (L : FourierLaws O) (t : Trgsw) (g : TrgswF O)
    (p : Torus) (s : List Torus) (err : ℕ → ℕ → Torus)
    (ht : IsTrgsw P.trgswLv1.N P.trgswLv1.L P.trgswLv1.BGBIT t p s err) (c : Trlwe) (k : ℕ)
    (hk : k < P.trgswLv1.N) :
    trPhase P.trgswLv1.N (extProd P L (gadgetOffset P.trgswLv1.BGBIT P.trgswLv1.L) g c).A
        (extProd P L (gadgetOffset P.trgswLv1.BGBIT P.trgswLv1.L) g c).B s k
      = p * trPhase P.trgswLv1.N c.A c.B s k
        + extErr P L (gadgetOffset P.trgswLv1.BGBIT P.trgswLv1.L) t g p s err c k := by
  set off := gadgetOffset P.trgswLv1.BGBIT P.trgswLv1.L with hoff
  set N := P.trgswLv1.N with hN
  set l := P.trgswLv1.L with hl
  set b := P.trgswLv1.BGBIT with hb
  set eA := backendErrA P L off t g c with heA
  set eB := backendErrB P L off t g c with heB
  set d : ℕ → ℕ → Torus := fun i => at' (digitPoly P off c i) with hd
  have hA : ∀ k, at' (extProd P L off g c).A k
      = (∑ i ∈ Finset.range (l * 2), negMul N (d i) (at' (t.row i).A) k) + eA k := by
    intro k; rw [heA]; unfold backendErrA; ring
  have hB : at' (extProd P L off g c).B k
      = (∑ i ∈ Finset.range (l * 2), negMul N (d i) (at' (t.row i).B) k) + eB k := by
    rw [heB]; unfold backendErrB; ring
  have hAs : negMul N (at' (extProd P L off g c).A) (at' s) k
      = (∑ i ∈ Finset.range (l * 2), negMul N (d i) (negMul N (at' (t.row i).A) (at' s)) k)
        + negMul N eA (at' s) k := by
    rw [show at' (extProd P L off g c).A = fun k =>
      (∑ i ∈ Finset.range (l * 2), negMul N (d i) (at' (t.row i).A) k) + eA k from funext hA,
      negMul_add_left, negMul_sum_left]
    congr 1
    exact Finset.sum_congr rfl fun i _ => negMul_assoc N _ _ _ k hk
  have hphase : trPhase N (extProd P L off g c).A (extProd P L off g c).B s k
      = (∑ i ∈ Finset.range (l * 2), negMul N (d i) (trPhase N (t.row i).A (t.row i).B s) k)
        + (eB k - negMul N eA (at' s) k) := by
    unfold trPhase
    rw [hAs, hB]
    simp only [negMul_sub_right, Finset.sum_sub_distrib]
    ring
  have hlo : ∀ i ∈ Finset.range l, negMul N (d i) (trPhase N (t.row i).A (t.row i).B s) k
      = negMul N (d i) (err i) k
        - p * negMul N (fun j => ((2 ^ (32 - (i + 1) * b) : ℕ) : Torus) * d i j) (at' s) k := by
    intro i hi
    rw [negMul_congr N (d i) (d i) _ (fun k => err i k - (p * ((2 ^ (32 - (i + 1) * b) : ℕ) : Torus)) * at' s k)
      (fun _ _ => rfl) (fun j hj => ht.phaseA i (Finset.mem_range.1 hi) j hj) k hk,
      negMul_sub_right, negMul_smul_right, negMul_smul_left]
    ring
  have hhi : ∀ i ∈ Finset.range l, negMul N (d (i + l)) (trPhase N (t.row (i + l)).A (t.row (i + l)).B s) k
      = negMul N (d (i + l)) (err (i + l)) k
        + p * (d (i + l) k * ((2 ^ (32 - (i + 1) * b) : ℕ) : Torus)) := by
    intro i hi
    rw [negMul_congr N _ (d (i + l)) _ (fun k => err (i + l) k
        + if k = 0 then p * ((2 ^ (32 - (i + 1) * b) : ℕ) : Torus) else 0)
      (fun _ _ => rfl) (fun j hj => ht.phaseB i (Finset.mem_range.1 hi) j hj) k hk,
      negMul_add_right, negMul_const_right N _ _ k hk]
    ring
  have hrecA : ∀ j < N, ∑ i ∈ Finset.range l, ((2 ^ (32 - (i + 1) * b) : ℕ) : Torus) * d i j
      = at' c.A j - lowBits l b (at' c.A j) := by
    intro j hj
    have := digit_recompose (at' c.A j) b l W.gadget_fits W.bgbit_pos
    rw [← hoff] at this
    unfold lowBits
    rw [← this]
    apply Finset.sum_congr rfl
    intro i hi
    rw [hd]
    simp only
    rw [digitPoly_lo P off c i j (Finset.mem_range.1 hi) hj, mul_comm]
  have hrecB : ∑ i ∈ Finset.range l, d (i + l) k * ((2 ^ (32 - (i + 1) * b) : ℕ) : Torus)
      = at' c.B k - lowBits l b (at' c.B k) := by
    have := digit_recompose (at' c.B k) b l W.gadget_fits W.bgbit_pos
    rw [← hoff] at this
    unfold lowBits
    rw [← this]
    apply Finset.sum_congr rfl
    intro i hi
    rw [hd]
    simp only
    rw [digitPoly_hi P off c i k hk]
  rw [hphase, sum_range_two_mul, Finset.sum_congr rfl hlo, Finset.sum_congr rfl hhi]
  unfold extErr
  rw [← hN, ← hl, ← hb, sum_range_two_mul (f := fun i => negMul N (at' (digitPoly P off c i)) (err i) k)]
  simp only [Finset.sum_sub_distrib, Finset.sum_add_distrib, ← Finset.mul_sum]
  rw [hrecB, ← negMul_sum_left, negMul_congr N _ (fun j => at' c.A j - lowBits l b (at' c.A j)) _ _ hrecA
    (fun _ _ => rfl) k hk, negMul_sub_left]
  unfold trPhase
  ring

theorem nrm_digit (y : Torus) (b i : ℕ) (h : (i + 1) * b ≤ 32) (hb : 1 ≤ b) :
    nrm (digit y b i) ≤ 2 ^ (b - 1) := by
  unfold nrm
  rw [digit_toInt y b i h hb]
  generalize y.toNat / 2 ^ (32 - (i + 1) * b) = u
  have h1 : (2 : ℕ) ^ (b - 1) * 2 = 2 ^ b := by rw [← pow_succ]; congr 1; omega
  have h2 : u % 2 ^ b < 2 ^ b := Nat.mod_lt _ (by positivity)
  have h3 : ((2 : ℤ) ^ (b - 1)) = ((2 ^ (b - 1) : ℕ) : ℤ) := by push_cast; rfl
  rw [h3]
  generalize u % 2 ^ b = v at *
  generalize (2 : ℕ) ^ (b - 1) = h at *
  omega

theorem nrm_digitPoly {P : Params} (W : WellFormed P) (off : Torus) (c : Trlwe) (i : ℕ)
    (hi : i < P.trgswLv1.L * 2) (j : ℕ) :
    nrm (at' (digitPoly P off c i) j) ≤ 2 ^ (P.trgswLv1.BGBIT - 1) := by
  by_cases hj : j < P.trgswLv1.N
  · have hf := W.gadget_fits
    by_cases h : i < P.trgswLv1.L
    · rw [digitPoly_lo P off c i j h hj]
      exact nrm_digit _ _ _ ((Nat.mul_le_mul_right _ h).trans hf) W.bgbit_pos
    · obtain ⟨i', rfl⟩ : ∃ i', i = i' + P.trgswLv1.L := ⟨i - P.trgswLv1.L, by omega⟩
      rw [digitPoly_hi P off c i' j hj]
      exact nrm_digit _ _ _ ((Nat.mul_le_mul_right _ (by omega)).trans hf) W.bgbit_pos
  · have : at' (digitPoly P off c i) j = 0 := by
      unfold at'; rw [List.getD_eq_getElem?_getD, List.getElem?_eq_none (by simp; omega)]; rfl
    rw [this]; simp [nrm]

theorem row_getElem (t : Trgsw) (i : ℕ) (h : i < t.length) : t.row i = t[i] := by
  unfold Trgsw.row; rw [List.getD_eq_getElem?_getD, List.getElem?_eq_getElem h]; rfl

theorem goodG_of_isFft {L : FourierLaws O} {N l b : ℕ} (hN : O.deg = N) {t : Trgsw} {g : TrgswF O} {p : Torus}
    {s : List Torus} {err : ℕ → ℕ → Torus} (ht : IsTrgsw N l b t p s err) (hg : IsFft L t g) :
    GoodG L l g := by
  unfold IsFft at hg
  subst hg
  refine ⟨by rw [List.length_map, ht.rows]; omega, ?_⟩
  intro row hrow
  obtain ⟨r, hr, rfl⟩ := List.mem_map.1 hrow
  exact ⟨L.ok_T _ (by rw [ht.sizedA r hr, hN]), L.ok_T _ (by rw [ht.sizedB r hr, hN])⟩

/-- The backend errors of an external product are within the accuracy of the backend. -/
theorem nrm_backendErr {P : Params} (W : WellFormed P) (L : FourierLaws O) (hd : O.deg = P.trgswLv1.N)
    {D : ℕ} (hacc : L.Accurate (P.trgswLv1.L * 2) (2 ^ (P.trgswLv1.BGBIT - 1)) D) (off : Torus)
    (t : Trgsw) (g : TrgswF O) (p : Torus) (s : List Torus) (err : ℕ → ℕ → Torus)
    (ht : IsTrgsw P.trgswLv1.N P.trgswLv1.L P.trgswLv1.BGBIT t p s err) (hg : IsFft L t g) (c : Trlwe)
    (k : ℕ) (hk : k < P.trgswLv1.N) :
    nrm (backendErrA P L off t g c k) ≤ D ∧ nrm (backendErrB P L off t g c k) ≤ D := by
  have hrowA : ∀ i < P.trgswLv1.L * 2, L.rowA g i = L.T (t.row i).A := by
    intro i hi
    have h : i < t.length := by rw [ht.rows]; omega
    rw [row_getElem t i h]
    unfold FourierLaws.rowA
    rw [hg, List.getElem?_map, List.getElem?_eq_getElem h]; rfl
  have hrowB : ∀ i < P.trgswLv1.L * 2, L.rowB g i = L.T (t.row i).B := by
    intro i hi
    have h : i < t.length := by rw [ht.rows]; omega
    rw [row_getElem t i h]
    unfold FourierLaws.rowB
    rw [hg, List.getElem?_map, List.getElem?_eq_getElem h]; rfl
  have hsz : ∀ i < P.trgswLv1.L * 2, (t.row i).A.length = O.deg ∧ (t.row i).B.length = O.deg := by
    intro i hi
    have h : i < t.length := by rw [ht.rows]; omega
    rw [row_getElem t i h, hd]
    exact ⟨ht.sizedA _ (List.getElem_mem h), ht.sizedB _ (List.getElem_mem h)⟩
  constructor
  · have := hacc (tab (P.trgswLv1.L * 2) fun i => (digitPoly P off c i, (t.row i).A)) (by simp) (by
      intro q hq
      obtain ⟨i, hi, rfl⟩ := List.mem_map.1 hq
      have hi := List.mem_range.1 hi
      exact ⟨by simp [hd], (hsz i hi).1, nrm_digitPoly W off c i hi⟩) k (by omega)
    rw [← L.mac_eq_accum (digitPoly P off c) (fun i => (t.row i).A), map_tab, sum_tab, hd,
      ← L.mac_congr _ _ _ _ hrowA] at this
    exact this
  · have := hacc (tab (P.trgswLv1.L * 2) fun i => (digitPoly P off c i, (t.row i).B)) (by simp) (by
      intro q hq
      obtain ⟨i, hi, rfl⟩ := List.mem_map.1 hq
      have hi := List.mem_range.1 hi
      exact ⟨by simp [hd], (hsz i hi).2, nrm_digitPoly W off c i hi⟩) k (by omega)
    rw [← L.mac_eq_accum (digitPoly P off c) (fun i => (t.row i).B), map_tab, sum_tab, hd,
      ← L.mac_congr _ _ _ _ hrowB] at this
    exact this

/-- Worst case of the error of an external product. -/
theorem nrm_extErr {P : Params} (W : WellFormed P) (L : FourierLaws O) (hd : O.deg = P.trgswLv1.N)
    {D : ℕ} (hacc : L.Accurate (P.trgswLv1.L * 2) (2 ^ (P.trgswLv1.BGBIT - 1)) D) (off : Torus)
    (t : Trgsw) (g : TrgswF O) (p : Torus) (s : List Torus) (hs : ∀ i, at' s i = 0 ∨ at' s i = 1)
    (err : ℕ → ℕ → Torus) (β : ℕ) (hβ : ∀ i k, nrm (err i k) ≤ β) {err' : ℕ → ℕ → Torus}
    (ht : IsTrgsw P.trgswLv1.N P.trgswLv1.L P.trgswLv1.BGBIT t p s err') (hg : IsFft L t g) (c : Trlwe)
    (k : ℕ) (hk : k < P.trgswLv1.N) :
    nrm (extErr P L off t g p s err c k) ≤
      P.trgswLv1.L * 2 * (P.trgswLv1.N * (2 ^ (P.trgswLv1.BGBIT - 1) * β))
      + nrm p * (2 ^ (32 - P.trgswLv1.L * P.trgswLv1.BGBIT) * (1 + weight P.trgswLv1.N s))
      + D * (1 + weight P.trgswLv1.N s) := by
  have hlb : 1 ≤ P.trgswLv1.L * P.trgswLv1.BGBIT := Nat.mul_pos W.l_pos W.bgbit_pos
  have e1 := nrm_sum_le (Finset.range (P.trgswLv1.L * 2))
    (fun i => negMul P.trgswLv1.N (at' (digitPoly P off c i)) (err i) k)
    (P.trgswLv1.N * (2 ^ (P.trgswLv1.BGBIT - 1) * β)) (fun i hi =>
      nrm_negMul _ _ _ _ _ (fun j _ => nrm_digitPoly W off c i (Finset.mem_range.1 hi) j)
        (fun j _ => hβ i j) k hk)
  rw [Finset.card_range] at e1
  set T := 2 ^ (32 - P.trgswLv1.L * P.trgswLv1.BGBIT) with hT
  have e2 := nrm_negMul_weight P.trgswLv1.N
    (fun i => lowBits P.trgswLv1.L P.trgswLv1.BGBIT (at' c.A i)) (at' s) T
    (fun i _ => (nrm_lowBits _ _ _ hlb).le) k hk
  rw [sum_nrm_key _ s hs] at e2
  have e3 := (nrm_lowBits P.trgswLv1.L P.trgswLv1.BGBIT (at' c.B k) hlb).le
  have e4 := nrm_backendErr W L hd hacc off t g p s err' ht hg c
  have e5 := nrm_negMul_weight P.trgswLv1.N (backendErrA P L off t g c) (at' s) D
    (fun i hi => (e4 i hi).1) k hk
  rw [sum_nrm_key _ s hs] at e5
  unfold extErr
  refine (nrm_add _ _).trans (Nat.add_le_add ((nrm_sub _ _).trans (Nat.add_le_add e1 ?_)) ?_)
  · refine (nrm_mul _ _).trans (Nat.mul_le_mul le_rfl ((nrm_sub _ _).trans ?_))
    calc _ ≤ T + T * weight P.trgswLv1.N s := Nat.add_le_add e3 e2
      _ = _ := by ring
  · refine (nrm_sub _ _).trans ?_
    calc _ ≤ D + D * weight P.trgswLv1.N s := Nat.add_le_add (e4 k hk).2 e5
      _ = _ := by ring

/-! ### CMUX -/

theorem trPhase_congr (N : ℕ) (A B A' B' s : List Torus) (hA : ∀ i < N, at' A i = at' A' i)
    (hB : ∀ i < N, at' B i = at' B' i) (k : ℕ) (hk : k < N) :
    trPhase N A B s k = trPhase N A' B' s k := by
  unfold trPhase
  rw [hB k hk, negMul_congr N _ _ _ _ hA (fun _ _ => rfl) k hk]

theorem trPhase_add (N : ℕ) (x y : Trlwe) (s : List Torus) (k : ℕ) (hk : k < N) :
    trPhase N (Trlwe.add N x y).A (Trlwe.add N x y).B s k
      = trPhase N x.A x.B s k + trPhase N y.A y.B s k := by
  unfold trPhase Trlwe.add
  simp only
  rw [at'_tab _ _ _ hk, negMul_congr N _ (fun i => at' x.A i + at' y.A i) _ _
    (fun i hi => at'_tab _ _ _ hi) (fun _ _ => rfl) k hk, negMul_add_left]
  ring

theorem trPhase_sub (N : ℕ) (x y : Trlwe) (s : List Torus) (k : ℕ) (hk : k < N) :
    trPhase N (Trlwe.sub N x y).A (Trlwe.sub N x y).B s k
      = trPhase N x.A x.B s k - trPhase N y.A y.B s k := by
  unfold trPhase Trlwe.sub
  simp only
  rw [at'_tab _ _ _ hk, negMul_congr N _ (fun i => at' x.A i - at' y.A i) _ _
    (fun i hi => at'_tab _ _ _ hi) (fun _ _ => rfl) k hk, negMul_sub_left]
  ring

/-- Phase of a CMUX. -/
theorem trPhase_cmux {P : Params} (W : WellFormed P) (L : FourierLaws O) (t : Trgsw) (g : TrgswF O)
    (p : Torus) (s : List Torus) (err : ℕ → ℕ → Torus)
    (ht : IsTrgsw P.trgswLv1.N P.trgswLv1.L P.trgswLv1.BGBIT t p s err) (c0 c1 : Trlwe) (k : ℕ)
    (hk : k < P.trgswLv1.N) :
    trPhase P.trgswLv1.N (cmux P L (gadgetOffset P.trgswLv1.BGBIT P.trgswLv1.L) g c0 c1).A
        (cmux P L (gadgetOffset P.trgswLv1.BGBIT P.trgswLv1.L) g c0 c1).B s k
      = trPhase P.trgswLv1.N c0.A c0.B s k
        + p * (trPhase P.trgswLv1.N c1.A c1.B s k - trPhase P.trgswLv1.N c0.A c0.B s k)
        + extErr P L (gadgetOffset P.trgswLv1.BGBIT P.trgswLv1.L) t g p s err
            (Trlwe.sub P.trgswLv1.N c1 c0) k := by
  unfold cmux
  rw [trPhase_add _ _ _ _ _ hk, trPhase_extProd W L t g p s err ht _ k hk, trPhase_sub _ _ _ _ _ hk]
  ring

/-! ### Rotation -/

/-- `1` where `X^k` wraps around an odd number of times at coefficient `i`. -/
def wraps (N : ℕ) (k : ℤ) (i : ℕ) : Torus := if (((i : ℤ) - k) / N) % 2 = 0 then 0 else 1

/-- The error of rotating with `^0 - x` in place of `-x`. -/
def rotErr (N : ℕ) (s : List Torus) (k : ℤ) (i : ℕ) : Torus :=
  negMul N (wraps N k) (at' s) i - wraps N k i

theorem extG_compl_eq (N : ℕ) (f : ℕ → Torus) (k : ℤ) (i : ℕ) :
    extG compl N f (i - k) = mulXk N f k i - wraps N k i := by
  unfold mulXk ext extG wraps
  split_ifs
  · ring
  · rw [compl_eq]

theorem trPhase_rot (N : ℕ) (t : Trlwe) (s : List Torus) (k : ℤ) (i : ℕ) (hi : i < N) :
    trPhase N (rot N k t).A (rot N k t).B s i
      = mulXk N (trPhase N t.A t.B s) k i + rotErr N s k i := by
  have hN : 0 < N := by omega
  unfold rot
  show at' _ i - _ = _
  rw [at'_tab _ _ _ hi, negMul_congr N _ (fun i => mulXk N (at' t.A) k i - wraps N k i) _ (at' s)
    (fun j hj => by rw [at'_tab _ _ _ hj, extG_compl_eq]) (fun _ _ => rfl) i hi, negMul_sub_left,
    extG_compl_eq, ← mulXk_negMul N _ _ k i hi]
  unfold rotErr trPhase
  rw [mulXk_sub]
  ring

theorem nrm_wraps (N : ℕ) (k : ℤ) (i : ℕ) : nrm (wraps N k i) ≤ 1 := by
  unfold wraps; split_ifs <;> decide

theorem nrm_rotErr (N : ℕ) (s : List Torus) (hs : ∀ i, at' s i = 0 ∨ at' s i = 1) (k : ℤ) (i : ℕ)
    (hi : i < N) : nrm (rotErr N s k i) ≤ 1 + weight N s := by
  unfold rotErr
  have := nrm_negMul_weight N (wraps N k) (at' s) 1 (fun i _ => nrm_wraps N k i) i hi
  rw [sum_nrm_key _ s hs] at this
  exact (nrm_sub _ _).trans (by have := nrm_wraps N k i; omega)

/-! ### Blind rotation -/

section BlindRotation

variable (P : Params) (L : FourierLaws O) (bsk : List (TrgswF O)) (tv : Trlwe) (c : List Torus)
  (s0 s1 : List Torus) (ts : ℕ → Trgsw) (err : ℕ → ℕ → ℕ → Torus)

/-- The error added by step `i` of the blind rotation. -/
def stepErr (i k : ℕ) : Torus :=
  let off := gadgetOffset P.trgswLv1.BGBIT P.trgswLv1.L
  let acc := blindAcc P L off bsk tv c i
  at' s0 i * rotErr P.trgswLv1.N s1 (aTilda P.trgswLv1.NBIT (at' c i)) k
  + extErr P L off (ts i) (bsk.getD i []) (at' s0 i) s1 (err i)
      (Trlwe.sub P.trgswLv1.N (rot P.trgswLv1.N (aTilda P.trgswLv1.NBIT (at' c i)) acc) acc) k

/-- The error of the accumulator after `i` steps: every step's error, rotated by the later steps. -/
def accErr : ℕ → ℕ → Torus
  | 0 => rotErr P.trgswLv1.N s1 (bTilda P.trgswLv1.N P.trgswLv1.NBIT (at' c P.tlweLv0.N))
  | i + 1 => fun k => mulXk P.trgswLv1.N (accErr i) ((at' s0 i).toNat * aTilda P.trgswLv1.NBIT (at' c i)) k
      + stepErr P L bsk tv c s0 s1 ts err i k

/-- The exponent after `i` steps. -/
def accExp (i : ℕ) : ℤ :=
  bTilda P.trgswLv1.N P.trgswLv1.NBIT (at' c P.tlweLv0.N)
    + ∑ j ∈ Finset.range i, ((at' s0 j).toNat : ℤ) * aTilda P.trgswLv1.NBIT (at' c j)

/-- Phase of the accumulator after `i` steps: the test vector rotated, plus accumulated errors. -/
theorem trPhase_blindAcc (W : WellFormed P) (hs0 : ∀ i, at' s0 i = 0 ∨ at' s0 i = 1)
    (n : ℕ) (hts : ∀ i < n, IsTrgsw P.trgswLv1.N P.trgswLv1.L P.trgswLv1.BGBIT (ts i) (at' s0 i) s1 (err i))
    (k : ℕ) (hk : k < P.trgswLv1.N) :
    trPhase P.trgswLv1.N
        (blindAcc P L (gadgetOffset P.trgswLv1.BGBIT P.trgswLv1.L) bsk tv c n).A
        (blindAcc P L (gadgetOffset P.trgswLv1.BGBIT P.trgswLv1.L) bsk tv c n).B s1 k
      = mulXk P.trgswLv1.N (trPhase P.trgswLv1.N tv.A tv.B s1) (accExp P c s0 n) k
        + accErr P L bsk tv c s0 s1 ts err n k := by
  have hN : 0 < P.trgswLv1.N := by omega
  induction n generalizing k with
  | zero =>
    simp only [blindAcc, accExp, accErr, Finset.range_zero, Finset.sum_empty, add_zero]
    exact trPhase_rot _ _ _ _ _ hk
  | succ n ih =>
    have ih' := ih (fun i hi => hts i (by omega))
    simp only [blindAcc]
    rw [trPhase_cmux W L (ts n) _ (at' s0 n) s1 (err n) (hts n (by omega)) _ _ k hk,
      trPhase_rot _ _ _ _ _ hk]
    set acc := blindAcc P L (gadgetOffset P.trgswLv1.BGBIT P.trgswLv1.L) bsk tv c n with hacc
    set a := aTilda P.trgswLv1.NBIT (at' c n) with ha
    have key : trPhase P.trgswLv1.N acc.A acc.B s1 k
        + at' s0 n * (mulXk P.trgswLv1.N (trPhase P.trgswLv1.N acc.A acc.B s1) a k
          - trPhase P.trgswLv1.N acc.A acc.B s1 k)
        = mulXk P.trgswLv1.N (trPhase P.trgswLv1.N acc.A acc.B s1) ((at' s0 n).toNat * a) k := by
      rcases hs0 n with h | h <;> rw [h]
      · have h0 : (((0 : Torus).toNat : ℕ) : ℤ) * a = 0 := by
          rw [show (0 : Torus).toNat = 0 from rfl]; simp
        rw [h0, mulXk_zero _ _ _ hk]; ring
      · have h1 : (((1 : Torus).toNat : ℕ) : ℤ) * a = a := by
          rw [show (1 : Torus).toNat = 1 from rfl]; simp
        rw [h1]; ring
    have e2 : mulXk P.trgswLv1.N (trPhase P.trgswLv1.N acc.A acc.B s1) ((at' s0 n).toNat * a) k
        = mulXk P.trgswLv1.N (trPhase P.trgswLv1.N tv.A tv.B s1) (accExp P c s0 (n + 1)) k
          + mulXk P.trgswLv1.N (accErr P L bsk tv c s0 s1 ts err n) ((at' s0 n).toNat * a) k := by
      rw [mulXk_congr _ hN _ (fun k => mulXk P.trgswLv1.N (trPhase P.trgswLv1.N tv.A tv.B s1)
        (accExp P c s0 n) k + accErr P L bsk tv c s0 s1 ts err n k) (fun i hi => ih' i hi), mulXk_add]
      congr 1
      rw [mulXk_mulXk _ hN]
      congr 1
      unfold accExp
      rw [Finset.sum_range_succ]; ring
    simp only [accErr]
    unfold stepErr
    simp only [← hacc, ← ha]
    linear_combination key + e2

/-- The accumulated error is the sum of the errors of the steps, each rotated by the later steps. -/
theorem accErr_eq (n : ℕ) (hN : 0 < P.trgswLv1.N) (k : ℕ) (hk : k < P.trgswLv1.N) :
    accErr P L bsk tv c s0 s1 ts err n k
      = mulXk P.trgswLv1.N (rotErr P.trgswLv1.N s1 (bTilda P.trgswLv1.N P.trgswLv1.NBIT (at' c P.tlweLv0.N)))
          (accExp P c s0 n - accExp P c s0 0) k
        + ∑ i ∈ Finset.range n, mulXk P.trgswLv1.N (stepErr P L bsk tv c s0 s1 ts err i)
            (accExp P c s0 n - accExp P c s0 (i + 1)) k := by
  induction n generalizing k with
  | zero => simp [accErr, mulXk_zero _ _ _ hk]
  | succ n ih =>
    have hstep : ((at' s0 n).toNat : ℤ) * aTilda P.trgswLv1.NBIT (at' c n)
        = accExp P c s0 (n + 1) - accExp P c s0 n := by
      unfold accExp; rw [Finset.sum_range_succ]; ring
    simp only [accErr]
    rw [mulXk_congr _ hN _ _ (fun i hi => ih i hi), mulXk_add, Finset.sum_range_succ, sub_self,
      mulXk_zero _ _ _ hk, hstep]
    rw [show mulXk P.trgswLv1.N (fun i => ∑ x ∈ Finset.range n, mulXk P.trgswLv1.N
      (stepErr P L bsk tv c s0 s1 ts err x) (accExp P c s0 n - accExp P c s0 (x + 1)) i)
        (accExp P c s0 (n + 1) - accExp P c s0 n) k = ∑ x ∈ Finset.range n,
        mulXk P.trgswLv1.N (mulXk P.trgswLv1.N
          (stepErr P L bsk tv c s0 s1 ts err x) (accExp P c s0 n - accExp P c s0 (x + 1)))
          (accExp P c s0 (n + 1) - accExp P c s0 n) k from ext_sum _ _ _ _]
    simp only [mulXk_mulXk _ hN]
    rw [add_assoc]
    congr 1
    · congr 1; ring
    · congr 1
      apply Finset.sum_congr rfl
      intro x _
      congr 1; ring

end BlindRotation

end GoTfhe
