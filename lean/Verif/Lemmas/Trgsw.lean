import Verif.Lemmas.ExtProd

/-!
# TRGSW encryption in closed form
-/

namespace GoTfhe

variable {O : FourierOps}

theorem wr_tab {α : Type*} (n : ℕ) (f : ℕ → α) (i : ℕ) (v : α) (h : i < n) :
    wr (tab n f) i v = some (tab n (Function.update f i v)) := by
  rw [wr_eq _ _ _ (by simpa using h)]
  congr 1
  apply eq_tab_of _ _ _ (by simp)
  intro j hj
  rw [List.getElem_set]
  split_ifs with e
  · subst e; simp
  · rw [Function.update_of_ne (by omega)]; simp

theorem gadgetTorus_get {P : Params} (W : WellFormed P) (i : ℕ) (hi : i < P.trgswLv1.L) :
    rd (gadgetTorus P) i = some ((2 ^ (32 - (i + 1) * P.trgswLv1.BGBIT) : ℕ) : Torus) := by
  have hf : (i + 1) * P.trgswLv1.BGBIT ≤ 32 := (Nat.mul_le_mul_right _ hi).trans W.gadget_fits
  have hb := W.bgbit_pos
  unfold gadgetTorus f64ToTorusVec rd
  rw [List.map_map, List.getElem?_map, List.getElem?_range hi, Option.map_some]
  congr 1
  simp only [Function.comp]
  have e : (1 : ℚ) / (P.trgswLv1.BG : ℚ) ^ (i + 1)
      = ((2 ^ (32 - (i + 1) * P.trgswLv1.BGBIT) : ℤ) : ℚ) / 2 ^ 32 := by
    rw [W.bg]
    push_cast
    rw [← pow_mul, mul_comm P.trgswLv1.BGBIT, div_eq_div_iff (by positivity) (by positivity), one_mul,
      ← pow_add]
    congr 1; omega
  have h1 : (i + 1) * P.trgswLv1.BGBIT ≥ 1 := Nat.mul_pos (by omega) hb
  have h2 : (2 : ℤ) ^ (32 - (i + 1) * P.trgswLv1.BGBIT) ≤ 2 ^ 31 :=
    pow_le_pow_right₀ (by norm_num) (by omega)
  have h3 : (0 : ℤ) < 2 ^ (32 - (i + 1) * P.trgswLv1.BGBIT) := by positivity
  rw [e, f64ToTorus_int_div _ (by linarith) (by norm_num at h2 ⊢; omega), ← cast_int_eq]
  push_cast; rfl

/-- The zero encryption that `EncryptTorus` starts from in row `i`. -/
def zeroRow (P : Params) (L : FourierLaws O) (key : List Torus) (draw : ℕ → ℕ → Torus)
    (samples : ℕ → ℕ → ℚ) (i : ℕ) : Trlwe :=
  ⟨tab P.trgswLv1.N (draw i), tab P.trgswLv1.N fun k => f64ToTorus (samples i k)
    + at' (L.R (L.Mul (L.T (tab P.trgswLv1.N (draw i))) (L.T key))) k⟩

/-- Row `i` of the result of `EncryptTorus`. -/
def gswRow (P : Params) (L : FourierLaws O) (p : Torus) (key : List Torus) (draw : ℕ → ℕ → Torus)
    (samples : ℕ → ℕ → ℚ) (i : ℕ) : Trlwe :=
  let z := zeroRow P L key draw samples i
  if i < P.trgswLv1.L then
    ⟨z.A.set 0 (at' z.A 0 + p * ((2 ^ (32 - (i + 1) * P.trgswLv1.BGBIT) : ℕ) : Torus)), z.B⟩
  else ⟨z.A, z.B.set 0 (at' z.B 0
    + p * ((2 ^ (32 - (i - P.trgswLv1.L + 1) * P.trgswLv1.BGBIT) : ℕ) : Torus))⟩

theorem trgswEncryptTorus_eq {P : Params} (W : WellFormed P) (L : FourierLaws O)
    (hd : O.deg = P.trgswLv1.N) (t : Trgsw) (ht : t.length = 2 * P.trgswLv1.L) (p : Torus)
    (key : List Torus) (hk : key.length = P.trgswLv1.N) (draw : ℕ → ℕ → Torus) (samples : ℕ → ℕ → ℚ) :
    trgswEncryptTorus P O t p key draw samples
      = some (tab (2 * P.trgswLv1.L) (gswRow P L p key draw samples)) := by
  set l := P.trgswLv1.L with hl
  set N := P.trgswLv1.N with hN
  have hN16 := W.min_degree
  unfold trgswEncryptTorus
  simp only
  have hz : ∀ i k, k < N → at' (gaussianF64Vec (mkSlice N 0) (samples i)) k = f64ToTorus (samples i k) := by
    intro i k hk
    rw [at'_gaussianF64Vec _ _ _ (by simpa using hk)]
    have : (mkSlice N (0 : ℚ))[k]'(by simpa using hk) = 0 := by simp [mkSlice]
    rw [this]
    have : f64ToTorus 0 = 0 := by
      have := f64ToTorus_int_div 0 (by norm_num) (by norm_num)
      simpa using this
    rw [this, zero_add]
  rw [← hN, ← hl, forRange_fill_full _ t (zeroRow P L key draw samples) rfl]
  swap
  · intro i hi r _
    rw [trlweEncryptF64_eq P L _ _ key (draw i) (samples i) (by rw [hd, W.trlwe_eq])
      (by simp [newTRLWELv1]) (by rw [W.trlwe_eq]; simp [hN]) (by rw [hk, W.trlwe_eq])]
    simp only [Option.bind_eq_bind, Option.bind_some]
    rw [W.trlwe_eq]
    unfold zeroRow
    rw [← hN, tab_congr (n := N) (f := fun i_1 => at' (gaussianF64Vec (mkSlice N 0) (samples i)) i_1 + _)
      (fun k hk => by rw [hz i k hk])]
  simp only [Option.bind_eq_bind, Option.bind_some]
  rw [ht]
  set z := zeroRow P L key draw samples with hzr
  set S : ℕ → ℕ → Trlwe := fun k j =>
    if j < k ∨ (l ≤ j ∧ j < l + k) then gswRow P L p key draw samples j else z j with hS
  have h0 : tab (2 * l) (S 0) = tab (2 * l) z := by
    apply tab_congr
    intro j _
    simp only [hS]
    rw [if_neg (by omega)]
  have hfin : tab (2 * l) (S l) = tab (2 * l) (gswRow P L p key draw samples) := by
    apply tab_congr
    intro j hj
    simp only [hS]
    rw [if_pos (by omega)]
  have := forRange_eq l (fun i t => do
      let g ← rd (gadgetTorus P) i
      let row ← rd t i
      let x ← rd row.A 0
      let A ← wr row.A 0 (x + p * g)
      let t ← wr t i { row with A := A }
      let row ← rd t (i + l)
      let x ← rd row.B 0
      let B ← wr row.B 0 (x + p * g)
      wr t (i + l) { row with B := B }) (fun k => tab (2 * l) (S k)) (by
    intro i hi
    have hzA : (z i).A.length = N := by simp [hzr, zeroRow, hN]
    have hzB : (z (i + l)).B.length = N := by simp [hzr, zeroRow, hN]
    have e1 : S i i = z i := by simp only [hS]; rw [if_neg (by omega)]
    have e2 : S i (i + l) = z (i + l) := by simp only [hS]; rw [if_neg (by omega)]
    rw [gadgetTorus_get W i hi]
    simp only [Option.bind_eq_bind, Option.bind_some]
    rw [rd_tab _ _ _ (by omega), e1, Option.bind_some, rd_at' _ _ (by omega), Option.bind_some,
      wr_eq _ _ _ (by omega), Option.bind_some, wr_tab _ _ _ _ (by omega), Option.bind_some,
      rd_tab _ _ _ (by omega), Function.update_of_ne (by have := W.l_pos; omega), e2, Option.bind_some,
      rd_at' _ _ (by omega), Option.bind_some, wr_eq _ _ _ (by omega), Option.bind_some,
      wr_tab _ _ _ _ (by omega)]
    congr 1
    apply tab_congr
    intro j hj
    by_cases hj2 : j = i + l
    · subst hj2
      simp only [Function.update_self, hS]
      rw [if_pos (by omega)]
      unfold gswRow
      simp only
      rw [if_neg (by omega), Nat.add_sub_cancel]
    · rw [Function.update_of_ne hj2]
      by_cases hj1 : j = i
      · subst hj1
        simp only [Function.update_self, hS]
        rw [if_pos (by omega)]
        unfold gswRow
        simp only
        rw [if_pos hi]
      · rw [Function.update_of_ne hj1]
        simp only [hS]
        by_cases hc : j < i ∨ (l ≤ j ∧ j < l + i)
        · rw [if_pos hc, if_pos (by omega)]
        · rw [if_neg hc, if_neg (by omega)])
  simp only [h0, hfin, Option.bind_eq_bind] at this
  exact this

theorem trPhase_setA (N : ℕ) (A B s : List Torus) (hA : A.length = N) (v : Torus) (k : ℕ) (hk : k < N) :
    trPhase N (A.set 0 (at' A 0 + v)) B s k = trPhase N A B s k - v * at' s k := by
  unfold trPhase
  rw [negMul_congr N _ (fun i => at' A i + if i = 0 then v else 0) _ (at' s) _ (fun _ _ => rfl) k hk,
    negMul_add_left, negMul_comm N (fun i => if i = 0 then v else 0) (at' s) k hk, negMul_const_right N _ _ k hk]
  · ring
  · intro i hi
    rw [at'_of_lt _ _ (by simp; omega), List.getElem_set]
    by_cases h : i = 0
    · subst h; simp
    · rw [if_neg (by omega), if_neg h, add_zero]
      exact (at'_of_lt A i (by omega)).symm

theorem trPhase_setB (N : ℕ) (A B s : List Torus) (hB : B.length = N) (v : Torus) (k : ℕ) (hk : k < N) :
    trPhase N A (B.set 0 (at' B 0 + v)) s k = trPhase N A B s k + if k = 0 then v else 0 := by
  unfold trPhase
  rw [at'_of_lt _ _ (by simp; omega), List.getElem_set]
  by_cases h : k = 0
  · subst h; simp; ring
  · rw [if_neg (by omega), if_neg h, add_zero, at'_of_lt B k (by omega)]

/-- The error of the product `A*s` computed by the backend for row `i`. -/
def encErr (P : Params) (L : FourierLaws O) (key : List Torus) (draw : ℕ → ℕ → Torus) (i k : ℕ) : Torus :=
  at' (L.R (L.Mul (L.T (tab P.trgswLv1.N (draw i))) (L.T key))) k
    - negMul P.trgswLv1.N (draw i) (at' key) k

theorem trPhase_zeroRow (P : Params) (L : FourierLaws O) (key : List Torus) (draw : ℕ → ℕ → Torus)
    (samples : ℕ → ℕ → ℚ) (i k : ℕ) (hk : k < P.trgswLv1.N) :
    trPhase P.trgswLv1.N (zeroRow P L key draw samples i).A (zeroRow P L key draw samples i).B key k
      = f64ToTorus (samples i k) + encErr P L key draw i k := by
  unfold trPhase zeroRow encErr
  simp only
  rw [at'_tab _ _ _ hk, negMul_congr _ _ (draw i) _ (at' key) (fun j hj => at'_tab _ _ _ hj)
    (fun _ _ => rfl) k hk]
  ring

/-- `EncryptTorus` produces a TRGSW sample. -/
theorem isTrgsw_gswRow (P : Params) (L : FourierLaws O) (p : Torus) (key : List Torus)
    (draw : ℕ → ℕ → Torus) (samples : ℕ → ℕ → ℚ) :
    IsTrgsw P.trgswLv1.N P.trgswLv1.L P.trgswLv1.BGBIT
      (tab (2 * P.trgswLv1.L) (gswRow P L p key draw samples)) p key
      (fun i k => f64ToTorus (samples i k) + encErr P L key draw i k) := by
  have hrow : ∀ i < 2 * P.trgswLv1.L, Trgsw.row (tab (2 * P.trgswLv1.L) (gswRow P L p key draw samples)) i
      = gswRow P L p key draw samples i := by
    intro i hi
    unfold Trgsw.row
    rw [List.getD_eq_getElem?_getD, getElem?_tab, if_pos hi]; rfl
  have hzA : ∀ i, (zeroRow P L key draw samples i).A.length = P.trgswLv1.N := by intro i; simp [zeroRow]
  have hzB : ∀ i, (zeroRow P L key draw samples i).B.length = P.trgswLv1.N := by intro i; simp [zeroRow]
  refine ⟨by simp, ?_, ?_, ?_, ?_⟩
  · intro row h
    obtain ⟨i, -, rfl⟩ := List.mem_map.1 h
    unfold gswRow
    simp only
    split_ifs <;> simp [hzA]
  · intro row h
    obtain ⟨i, -, rfl⟩ := List.mem_map.1 h
    unfold gswRow
    simp only
    split_ifs <;> simp [hzB]
  · intro i hi k hk
    rw [hrow i (by omega)]
    unfold gswRow
    simp only [if_pos hi]
    rw [trPhase_setA _ _ _ _ (hzA i) _ _ hk, trPhase_zeroRow _ _ _ _ _ _ _ hk]
  · intro i hi k hk
    rw [hrow (i + P.trgswLv1.L) (by omega)]
    unfold gswRow
    simp only [if_neg (show ¬ i + P.trgswLv1.L < P.trgswLv1.L by omega), Nat.add_sub_cancel]
    rw [trPhase_setB _ _ _ _ (hzB _) _ _ hk, trPhase_zeroRow _ _ _ _ _ _ _ hk]

theorem newTRGSWLv1FFT_eq (L : FourierLaws O) (t : Trgsw) (hA : ∀ row ∈ t, row.A.length = O.deg)
    (hB : ∀ row ∈ t, row.B.length = O.deg) :
    newTRGSWLv1FFT O t = some (t.map fun r => ⟨L.T r.A, L.T r.B⟩) := by
  unfold newTRGSWLv1FFT
  induction t with
  | nil => rfl
  | cons r t ih =>
    rw [List.mapM_cons, ih (fun row h => hA row (List.mem_cons_of_mem _ h))
      (fun row h => hB row (List.mem_cons_of_mem _ h)), L.toFourier'_eq _ (hA r List.mem_cons_self),
      L.toFourier'_eq _ (hB r List.mem_cons_self)]
    rfl

end GoTfhe
