import Verif.Model.Lut
import Verif.Spec.Lut
import Verif.Lemmas.Prelude
import Verif.Lemmas.Negacyclic
import Verif.Lemmas.LweMessage
import Mathlib.Tactic.NormNum
import Mathlib.Tactic.Ring

/-!
# Closed forms of the table generators
-/

namespace GoTfhe

theorem forRangeZ_nat {σ : Type*} (n : ℕ) (s : σ) (body : ℤ → σ → Option σ) :
    forRangeZ 0 (n : ℤ) s body = forRange 0 n s fun k s => body (k : ℤ) s := by
  unfold forRangeZ
  simp

theorem rdZ_nat {α : Type*} (l : List α) (i : ℕ) : rdZ l (i : ℤ) = rd l i := by
  unfold rdZ; rw [if_neg (by omega)]; simp

theorem wrZ_nat {α : Type*} (l : List α) (i : ℕ) (v : α) : wrZ l (i : ℤ) v = wr l i v := by
  unfold wrZ; rw [if_neg (by omega)]; simp

theorem wr_tab_update {α : Type*} (n : ℕ) (g : ℕ → α) (i : ℕ) (v : α) (h : i < n) :
    wr (tab n g) i v = some (tab n fun j => if j = i then v else g j) := by
  rw [wr_eq _ _ _ (by simpa using h)]
  congr 1
  apply List.ext_getElem
  · simp
  · intro k h1 h2
    rw [List.getElem_set, getElem_tab, getElem_tab]
    split_ifs with h3 h4 h4 <;> first | rfl | omega

/-- Filling an interval of a slice. -/
theorem forRange_interval {α : Type*} (n a b : ℕ) (hb : b ≤ n) (g : ℕ → α) (v : α) :
    forRange 0 (b - a) (tab n g) (fun k r => wr r (a + k) v)
      = some (tab n fun j => if a ≤ j ∧ j < b then v else g j) := by
  have := forRange_eq (b - a) (fun k r => wr r (a + k) v)
    (fun k => tab n fun j => if a ≤ j ∧ j < a + k then v else g j) (by
      intro i hi
      rw [wr_tab_update _ _ _ _ (by omega)]
      congr 1
      apply tab_congr
      intro j _
      split_ifs <;> first | rfl | omega)
  rw [show (tab n fun j => if a ≤ j ∧ j < a + 0 then v else g j) = tab n g from
    tab_congr fun j _ => by rw [if_neg (by omega)]] at this
  rw [this]
  congr 1
  apply tab_congr
  intro j _
  by_cases h : a ≤ j ∧ j < b
  · rw [if_pos h, if_pos (by omega)]
  · rw [if_neg h, if_neg (by omega)]

/-- `divRound` on natural numbers. -/
theorem divRound_nat (a m : ℕ) (hm : 1 ≤ m) : divRound (a : ℤ) (m : ℤ) = some (((a + m / 2) / m : ℕ) : ℤ) := by
  unfold divRound goDiv
  simp only [if_neg (by norm_num : (2 : ℤ) ≠ 0), Option.bind_eq_bind, Option.bind_some]
  rw [if_neg (by omega : (m : ℤ) ≠ 0)]
  rfl

theorem half_div (a m : ℕ) : (a + m / 2) / m = (2 * a + m) / (2 * m) := by
  rw [← Nat.div_div_eq_div_mul]
  congr 1
  omega

theorem divRound_start (x N m : ℕ) (hm : 1 ≤ m) :
    divRound ((x : ℤ) * (N : ℤ)) (m : ℤ) = some ((lutStart N m x : ℕ) : ℤ) := by
  rw [← Nat.cast_mul, divRound_nat _ _ hm, half_div]
  rfl

theorem divRound_offset (N m : ℕ) (hm : 1 ≤ m) :
    divRound (N : ℤ) (2 * (m : ℤ)) = some ((lutStart N (2 * m) 1 : ℕ) : ℤ) := by
  have := divRound_start 1 N (2 * m) (by omega)
  simpa using this

/-- The message whose slot contains index `j` of the raw table. -/
def lutSlot (N m j : ℕ) : ℕ := (j * m + (m - 1) / 2) / N

theorem lutStart_le_iff (N m : ℕ) (hN : 1 ≤ N) (hm : 1 ≤ m) (x j : ℕ) :
    lutStart N m x ≤ j ↔ x ≤ lutSlot N m j := by
  unfold lutStart lutSlot
  rw [Nat.le_div_iff_mul_le (by omega), ← half_div, ← Nat.lt_succ_iff, Nat.div_lt_iff_lt_mul (by omega)]
  have : (j + 1) * m = j * m + m := by ring
  show x * N + m / 2 < (j + 1) * m ↔ _
  omega

theorem lutStart_zero (N m : ℕ) (hm : 1 ≤ m) : lutStart N m 0 = 0 := by
  unfold lutStart
  exact Nat.div_eq_of_lt (by omega)

theorem lutStart_full (N m : ℕ) (hm : 1 ≤ m) : lutStart N m m = N := by
  unfold lutStart
  rw [show 2 * (m * N) + m = m + (2 * m) * N by ring, Nat.add_mul_div_left _ _ (by omega),
    Nat.div_eq_of_lt (by omega), zero_add]

theorem lutStart_mono (N m : ℕ) {x y : ℕ} (h : x ≤ y) : lutStart N m x ≤ lutStart N m y := by
  unfold lutStart
  apply Nat.div_le_div_right
  have := Nat.mul_le_mul_right N h
  omega

theorem lutOffset_le (N m : ℕ) (hN : 1 ≤ N) (hm : 1 ≤ m) : lutStart N (2 * m) 1 ≤ N := by
  rw [lutStart_le_iff N (2 * m) hN (by omega)]
  unfold lutSlot
  rw [Nat.le_div_iff_mul_le (by omega)]
  have := Nat.mul_le_mul_left N (show 1 ≤ 2 * m by omega)
  omega

theorem lutSlot_lt (N m j : ℕ) (hm : 1 ≤ m) (hj : j < N) : lutSlot N m j < m := by
  have h := (lutStart_le_iff N m (by omega) hm m j).not
  rw [lutStart_full N m hm] at h
  omega

/-- The loop that fills the raw table, for any loop body that writes `E x` into the slot of `x`. -/
theorem lutRaw_eq (N m : ℕ) (hN : 1 ≤ N) (hm : 1 ≤ m) (E : ℕ → Torus)
    (body : ℕ → List Torus → Option (List Torus))
    (hb : ∀ x < m, ∀ r : List Torus, r.length = N → body x r =
      forRangeZ (lutStart N m x : ℤ) (lutStart N m (x + 1) : ℤ) r (fun k r => wrZ r k (E x))) :
    forRange 0 m (mkSlice N (0 : Torus)) body = some (tab N fun j => E (lutSlot N m j)) := by
  have := forRange_eq m body (fun x => tab N fun j => if lutSlot N m j < x then E (lutSlot N m j) else 0) (by
    intro x hx
    rw [hb x hx _ (length_tab _ _)]
    unfold forRangeZ
    have e1 : ((lutStart N m (x + 1) : ℤ) - (lutStart N m x : ℤ)).toNat = lutStart N m (x + 1) - lutStart N m x := by
      omega
    rw [e1]
    have e2 : (fun (k : ℕ) (r : List Torus) => wrZ r ((lutStart N m x : ℤ) + (k : ℤ)) (E x))
        = fun k r => wr r (lutStart N m x + k) (E x) := by
      funext k r
      rw [← Nat.cast_add, wrZ_nat]
    rw [e2, forRange_interval N _ _ (by
      have := lutStart_mono N m (show x + 1 ≤ m by omega)
      rwa [lutStart_full N m hm] at this)]
    congr 1
    apply tab_congr
    intro j _
    have h1 := lutStart_le_iff N m hN hm x j
    have h2 := lutStart_le_iff N m hN hm (x + 1) j
    by_cases h : lutStart N m x ≤ j ∧ j < lutStart N m (x + 1)
    · have : lutSlot N m j = x := by omega
      rw [if_pos h, this, if_pos (by omega)]
    · rw [if_neg h]
      by_cases h3 : lutSlot N m j < x
      · rw [if_pos h3, if_pos (by omega)]
      · rw [if_neg h3, if_neg (by omega)])
  have e0 : (tab N fun j => if lutSlot N m j < 0 then E (lutSlot N m j) else 0) = mkSlice N (0 : Torus) := by
    unfold mkSlice
    apply List.ext_getElem
    · simp
    · intro k h1 h2
      simp [getElem_tab]
  rw [e0] at this
  rw [this]
  congr 1
  apply tab_congr
  intro j hj
  rw [if_pos (lutSlot_lt N m j hm hj)]

/-- Rotation, negation of the tail and storing: the second half of both generators. -/
theorem lutStore_eq (N off : ℕ) (hN : 1 ≤ N) (ho : off ≤ N) (R : ℕ → Torus) (out : Trlwe)
    (hA : out.A.length = N) (hB : out.B.length = N) :
    (do
      let rotated ← forRangeZ 0 (N : ℤ) (mkSlice N (0 : Torus)) fun i rotated => do
        let srcIdx ← goMod (i + (off : ℤ)) (N : ℤ)
        let v ← rdZ (tab N R) srcIdx
        wrZ rotated i v
      let rotated ← forRangeZ ((N : ℤ) - (off : ℤ)) (N : ℤ) rotated fun i rotated => do
        let v ← rdZ rotated i
        wrZ rotated i (-v)
      forRangeZ 0 (N : ℤ) out fun i lutOut => do
        let v ← rdZ rotated i
        let b ← wrZ lutOut.B i v
        let a ← wrZ lutOut.A i 0
        pure (⟨a, b⟩ : Trlwe) : Option Trlwe)
      = some ⟨tab N fun _ => 0, tab N fun i => ext N R ((i : ℤ) + off)⟩ := by
  have h1 : forRangeZ 0 (N : ℤ) (mkSlice N (0 : Torus)) (fun i rotated => do
        let srcIdx ← goMod (i + (off : ℤ)) (N : ℤ)
        let v ← rdZ (tab N R) srcIdx
        wrZ rotated i v) = some (tab N fun i => R ((i + off) % N)) := by
    rw [forRangeZ_nat]
    apply forRange_fill_full N _ _ (length_mkSlice _ _)
    intro i hi r _
    have : goMod ((i : ℤ) + (off : ℤ)) (N : ℤ) = some (((i + off) % N : ℕ) : ℤ) := by
      unfold goMod
      rw [if_neg (by omega), Int.tmod_eq_emod_of_nonneg (by omega)]
      push_cast
      rfl
    simp only [this, Option.bind_eq_bind, Option.bind_some]
    rw [rdZ_nat, rd_tab _ _ _ (Nat.mod_lt _ (by omega)), Option.bind_some, wrZ_nat]
  have h2 : forRangeZ ((N : ℤ) - (off : ℤ)) (N : ℤ) (tab N fun i => R ((i + off) % N)) (fun i rotated => do
        let v ← rdZ rotated i
        wrZ rotated i (-v)) = some (tab N fun i => ext N R ((i : ℤ) + off)) := by
    unfold forRangeZ
    have e1 : ((N : ℤ) - ((N : ℤ) - (off : ℤ))).toNat = off := by omega
    rw [e1]
    have := forRange_eq off (fun (k : ℕ) (rotated : List Torus) => do
        let v ← rdZ rotated ((N : ℤ) - (off : ℤ) + (k : ℤ))
        wrZ rotated ((N : ℤ) - (off : ℤ) + (k : ℤ)) (-v))
      (fun k => tab N fun i => if N - off ≤ i ∧ i < N - off + k then -R ((i + off) % N) else R ((i + off) % N)) (by
        intro k hk
        have e : (N : ℤ) - (off : ℤ) + (k : ℤ) = ((N - off + k : ℕ) : ℤ) := by omega
        simp only [e, Option.bind_eq_bind]
        rw [rdZ_nat, rd_tab _ _ _ (by omega), Option.bind_some, wrZ_nat, wr_tab_update _ _ _ _ (by omega),
          if_neg (by omega)]
        congr 1
        apply tab_congr
        intro j _
        by_cases h : j = N - off + k
        · subst h; rw [if_pos rfl, if_pos (by omega)]
        · rw [if_neg h]
          by_cases h3 : N - off ≤ j ∧ j < N - off + k
          · rw [if_pos h3, if_pos (by omega)]
          · rw [if_neg h3, if_neg (by omega)])
    rw [show (tab N fun i => if N - off ≤ i ∧ i < N - off + 0 then -R ((i + off) % N) else R ((i + off) % N))
      = tab N fun i => R ((i + off) % N) from tab_congr fun j _ => by rw [if_neg (by omega)]] at this
    rw [this]
    congr 1
    apply tab_congr
    intro i hi
    by_cases h : i + off < N
    · rw [if_neg (by omega), Nat.mod_eq_of_lt h, ← Nat.cast_add, ext_of_lt N R _ h]
    · rw [if_pos (by omega), Nat.mod_eq_sub_mod (by omega), Nat.mod_eq_of_lt (by omega)]
      have e : (i : ℤ) + (off : ℤ) = ((i + off - N : ℕ) : ℤ) + N := by omega
      rw [e, ext_add_N N (by omega), ext_of_lt N R _ (by omega)]
  simp only [Option.bind_eq_bind] at h1 h2 ⊢
  rw [h1, Option.bind_some, h2, Option.bind_some, forRangeZ_nat]
  have := forRange_eq N (fun (i : ℕ) (lutOut : Trlwe) =>
      (rdZ (tab N fun i => ext N R ((i : ℤ) + off)) (i : ℤ)).bind fun v =>
        (wrZ lutOut.B (i : ℤ) v).bind fun b => (wrZ lutOut.A (i : ℤ) 0).bind fun a => pure (⟨a, b⟩ : Trlwe))
    (fun k => ⟨filled k (fun _ => 0) out.A, filled k (fun i => ext N R ((i : ℤ) + off)) out.B⟩) (by
      intro i hi
      simp only
      rw [rdZ_nat, rd_tab _ _ _ hi, Option.bind_some, wrZ_nat, wr_filled _ _ _ (by omega), Option.bind_some, wrZ_nat,
        wr_filled i (fun _ => 0) out.A (by omega)]
      rfl)
  simp only [filled, List.drop_zero] at this
  refine Eq.trans ?_ (this.trans ?_)
  · rfl
  · rw [List.drop_eq_nil_of_le (by omega), List.drop_eq_nil_of_le (by omega), List.append_nil, List.append_nil]

/-- Value of `Encode`. -/
def Encoder.val (fl : ℚ → ℚ) (e : Encoder) (y : ℤ) : Torus :=
  f64ToTorus (fl (((y % e.messageModulus : ℤ) : ℚ) * e.scale))

theorem Encoder.encode_eq (fl : ℚ → ℚ) (e : Encoder) (y : ℤ) (h : 0 < e.messageModulus) :
    e.encode fl y = some (e.val fl y) := by
  have g := goMod_fix y e.messageModulus h
  unfold Encoder.encode Encoder.val
  cases hg : goMod y e.messageModulus with
  | none => rw [hg] at g; simp at g
  | some r =>
    rw [hg] at g
    simp only [Option.map_some, Option.some.injEq] at g
    simp only [Option.bind_eq_bind, Option.bind_some, g]
    rfl

/-- The table that both generators build when message `x` has the value `v x`. -/
def lutTable (N m : ℕ) (v : ℕ → Torus) : Trlwe :=
  ⟨tab N fun _ => 0, tab N fun i => ext N (fun j => v (lutSlot N m j)) ((i : ℤ) + lutStart N (2 * m) 1)⟩

theorem lutTable_sized (N m : ℕ) (v : ℕ → Torus) : (lutTable N m v).A.length = N ∧ (lutTable N m v).B.length = N :=
  ⟨length_tab _ _, length_tab _ _⟩

theorem Generator.genLookUpTableAssign_eq (fl : ℚ → ℚ) (g : Generator) (f : ℤ → Option ℤ) (F : ℕ → ℤ) (m : ℕ)
    (hm : 1 ≤ m) (hmod : g.encoder.messageModulus = m) (hN : 1 ≤ g.lookUpTableSize)
    (hf : ∀ x < m, f x = some (F x)) (out : Trlwe) (hA : out.A.length = g.lookUpTableSize)
    (hB : out.B.length = g.lookUpTableSize) :
    g.genLookUpTableAssign fl f out
      = some (lutTable g.lookUpTableSize m fun x => g.encoder.val fl (F x)) := by
  unfold Generator.genLookUpTableAssign
  simp only [hmod]
  rw [forRangeZ_nat, lutRaw_eq g.lookUpTableSize m hN hm (fun x => g.encoder.val fl (F x))]
  · simp only [Option.bind_eq_bind, Option.bind_some]
    rw [divRound_offset _ _ hm, Option.bind_some]
    have := lutStore_eq g.lookUpTableSize (lutStart g.lookUpTableSize (2 * m) 1) hN
      (lutOffset_le _ _ hN hm) (fun j => g.encoder.val fl (F (lutSlot g.lookUpTableSize m j))) out hA hB
    simp only [Option.bind_eq_bind] at this
    exact this
  · intro x hx r _
    have e : ((x : ℤ) + 1) = ((x + 1 : ℕ) : ℤ) := by push_cast; rfl
    rw [e, divRound_start _ _ _ hm, divRound_start _ _ _ hm, hf x hx]
    simp only [Option.bind_eq_bind, Option.bind_some]
    rw [g.encoder.encode_eq fl _ (by rw [hmod]; exact_mod_cast hm), Option.bind_some]

theorem Generator.genLookUpTableFullAssign_eq (g : Generator) (f : ℤ → Option Torus) (F : ℕ → Torus) (m : ℕ)
    (hm : 1 ≤ m) (hmod : g.encoder.messageModulus = m) (hN : 1 ≤ g.lookUpTableSize)
    (hf : ∀ x < m, f x = some (F x)) (out : Trlwe) (hA : out.A.length = g.lookUpTableSize)
    (hB : out.B.length = g.lookUpTableSize) :
    g.genLookUpTableFullAssign f out = some (lutTable g.lookUpTableSize m F) := by
  unfold Generator.genLookUpTableFullAssign
  simp only [hmod]
  rw [forRangeZ_nat, lutRaw_eq g.lookUpTableSize m hN hm F]
  · simp only [Option.bind_eq_bind, Option.bind_some]
    rw [divRound_offset _ _ hm, Option.bind_some]
    have := lutStore_eq g.lookUpTableSize (lutStart g.lookUpTableSize (2 * m) 1) hN
      (lutOffset_le _ _ hN hm) (fun j => F (lutSlot g.lookUpTableSize m j)) out hA hB
    simp only [Option.bind_eq_bind] at this
    exact this
  · intro x hx r _
    have e : ((x : ℤ) + 1) = ((x + 1 : ℕ) : ℤ) := by push_cast; rfl
    rw [e, divRound_start _ _ _ hm, divRound_start _ _ _ hm, hf x hx]
    simp only [Option.bind_eq_bind, Option.bind_some]

/-- Every rotation of the table. -/
theorem ext_lutTable (N m : ℕ) (hN : 1 ≤ N) (v : ℕ → Torus) (p : ℤ) :
    ext N (at' (lutTable N m v).B) p = ext N (fun j => v (lutSlot N m j)) (p + lutStart N (2 * m) 1) := by
  have h1 : ext N (at' (lutTable N m v).B) p
      = ext N (fun i => ext N (fun j => v (lutSlot N m j)) ((i : ℤ) - (-(lutStart N (2 * m) 1 : ℤ)))) p := by
    apply ext_congr N (by omega)
    intro i hi
    unfold lutTable
    rw [at'_tab _ _ _ hi, sub_neg_eq_add]
  rw [h1, ext_shift N (by omega), sub_neg_eq_add]

theorem lutTable_tableFor (N m : ℕ) (hN : 1 ≤ N) (hm : 1 ≤ m) (v : ℕ → Torus) :
    TableFor N m (at' (lutTable N m v).B) v := by
  refine ⟨?_, fun p => ext_add_N N (by omega) _ p⟩
  rintro x hx p ⟨h1, h2⟩
  rw [ext_lutTable N m hN]
  obtain ⟨j, hj⟩ : ∃ j : ℕ, p + lutStart N (2 * m) 1 = j := ⟨(p + lutStart N (2 * m) 1).toNat, by omega⟩
  rw [hj] at h1 h2 ⊢
  have h3 := lutStart_mono N m (show x + 1 ≤ m by omega)
  rw [lutStart_full N m hm] at h3
  rw [ext_of_lt N _ j (by omega)]
  have a1 := (lutStart_le_iff N m hN hm x j).1 (by omega)
  have a2 := (lutStart_le_iff N m hN hm (x + 1) j).not.1 (by omega)
  rw [show lutSlot N m j = x by omega]

end GoTfhe
