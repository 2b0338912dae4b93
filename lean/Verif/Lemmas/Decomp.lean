import Verif.Lemmas.Prelude
import Verif.Lemmas.Torus
import Verif.Model.Decomp
import Mathlib.Tactic.Ring
import Mathlib.Tactic.IntervalCases
import Mathlib.Tactic.LinearCombination

/-! # Gadget digits -/

namespace GoTfhe

theorem natCast_eq (n : ℕ) : ((n : ℕ) : Torus) = BitVec.ofNat 32 n := rfl

theorem natCast_toNat (x : Torus) : ((x.toNat : ℕ) : Torus) = x := by
  rw [natCast_eq]; exact BitVec.ofNat_toNat 32 x |>.trans (by simp)

theorem natCast_two32 : ((4294967296 : ℕ) : Torus) = 0 := by decide

/-- Positional digits from the top of a 32-bit word. -/
theorem digits_sum (y b : ℕ) (L : ℕ) (h : L * b ≤ 32) :
    (∑ i ∈ Finset.range L, (y / 2 ^ (32 - (i + 1) * b) % 2 ^ b) * 2 ^ (32 - (i + 1) * b))
      + y % 2 ^ (32 - L * b) = y % 2 ^ 32 := by
  induction L with
  | zero => simp
  | succ L ih =>
    have h' : L * b ≤ 32 := by rw [Nat.succ_mul] at h; omega
    rw [Finset.sum_range_succ]
    have e : 32 - L * b = (32 - (L + 1) * b) + b := by rw [Nat.succ_mul] at *; omega
    have := Nat.mod_mul (x := y) (a := 2 ^ (32 - (L + 1) * b)) (b := 2 ^ b)
    rw [← ih h', e, pow_add, this]
    ring

theorem shl_one_eq (k : ℕ) : (1#32 <<< k : Torus) = ((2 ^ k : ℕ) : Torus) := by
  apply BitVec.eq_of_toNat_eq
  rw [natCast_eq]
  simp [Nat.shiftLeft_eq]

theorem mask_toNat (b : ℕ) (hb : b ≤ 32) : ((1#32 <<< b : Torus) - 1).toNat = 2 ^ b - 1 := by
  interval_cases b <;> decide

/-- Shifting down and masking reads a digit. -/
theorem shr_mask_toNat (y : Torus) (s b : ℕ) (hb : b ≤ 32) :
    ((y >>> s) &&& ((1#32 <<< b) - 1)).toNat = y.toNat / 2 ^ s % 2 ^ b := by
  rw [BitVec.toNat_and, mask_toNat b hb, BitVec.toNat_ushiftRight, Nat.and_two_pow_sub_one_eq_mod,
    Nat.shiftRight_eq_div_pow]

theorem digit_shift (b i : ℕ) (h : (i + 1) * b ≤ 32) (hb : 1 ≤ b) :
    (32#32 - (BitVec.ofNat 32 i + 1) * BitVec.ofNat 32 b).toNat = 32 - (i + 1) * b := by
  have hi : i < 32 := by nlinarith
  have e : (BitVec.ofNat 32 i + 1) * BitVec.ofNat 32 b = BitVec.ofNat 32 ((i + 1) * b) := by
    rw [← natCast_eq, ← natCast_eq, ← natCast_eq]; push_cast; rfl
  rw [e, BitVec.toNat_sub, BitVec.toNat_ofNat, Nat.mod_eq_of_lt (a := (i + 1) * b) (by omega)]
  generalize (i + 1) * b = t at *
  simp only [BitVec.toNat_ofNat]
  norm_num
  omega

/-- The digit as unsigned digit minus `Bg/2`. -/
theorem digit_eq (y : Torus) (b i : ℕ) (h : (i + 1) * b ≤ 32) (hb : 1 ≤ b) :
    digit y b i = ((y.toNat / 2 ^ (32 - (i + 1) * b) % 2 ^ b : ℕ) : Torus) - ((2 ^ (b - 1) : ℕ) : Torus) := by
  have hb32 : b ≤ 32 := by nlinarith
  unfold digit
  rw [digit_shift b i h hb, shl_one_eq (b - 1)]
  congr 1
  rw [← shr_mask_toNat y _ b hb32, natCast_toNat]

theorem digit_toInt (y : Torus) (b i : ℕ) (h : (i + 1) * b ≤ 32) (hb : 1 ≤ b) :
    (digit y b i).toInt = ((y.toNat / 2 ^ (32 - (i + 1) * b) % 2 ^ b : ℕ) : ℤ) - 2 ^ (b - 1) := by
  have hb32 : b ≤ 32 := by nlinarith
  rw [digit_eq y b i h hb]
  have hlt : y.toNat / 2 ^ (32 - (i + 1) * b) % 2 ^ b < 2 ^ b := Nat.mod_lt _ (by positivity)
  generalize y.toNat / 2 ^ (32 - (i + 1) * b) % 2 ^ b = u at *
  have e : ((u : ℕ) : Torus) - ((2 ^ (b - 1) : ℕ) : Torus) = BitVec.ofInt 32 ((u : ℤ) - 2 ^ (b - 1)) := by
    rw [← cast_int_eq]; push_cast; rfl
  rw [e, toInt_ofInt32, bmod32_of_range]
  · have : (2 : ℤ) ^ (b - 1) ≤ 2 ^ 31 := pow_le_pow_right₀ (by norm_num) (by omega)
    norm_num at this; omega
  · have h1 : (2 : ℤ) ^ (b - 1) * 2 = 2 ^ b := by
      rw [← pow_succ]; congr 1; omega
    have h2 : (u : ℤ) < 2 ^ b := by exact_mod_cast hlt
    have : (2 : ℤ) ^ (b - 1) ≤ 2 ^ 31 := pow_le_pow_right₀ (by norm_num) (by omega)
    norm_num at this; omega

/-- The offset that makes the digits signed. -/
def gadgetOffset (b L : ℕ) : Torus :=
  ∑ i ∈ Finset.range L, ((2 ^ (b - 1) : ℕ) : Torus) * ((2 ^ (32 - (i + 1) * b) : ℕ) : Torus)

/-- Recomposition. -/
theorem digit_recompose (x : Torus) (b L : ℕ) (h : L * b ≤ 32) (hb : 1 ≤ b) :
    ∑ i ∈ Finset.range L, digit (x + gadgetOffset b L) b i * ((2 ^ (32 - (i + 1) * b) : ℕ) : Torus)
      = x - ((x.toNat % 2 ^ (32 - L * b) : ℕ) : Torus) := by
  set y := x + gadgetOffset b L with hy
  have hi : ∀ i ∈ Finset.range L, (i + 1) * b ≤ 32 := by
    intro i hi
    have : (i + 1) * b ≤ L * b := Nat.mul_le_mul_right _ (Finset.mem_range.1 hi)
    omega
  have e1 : ∑ i ∈ Finset.range L, digit y b i * ((2 ^ (32 - (i + 1) * b) : ℕ) : Torus)
      = (((∑ i ∈ Finset.range L, (y.toNat / 2 ^ (32 - (i + 1) * b) % 2 ^ b) * 2 ^ (32 - (i + 1) * b) : ℕ)) : Torus)
        - gadgetOffset b L := by
    unfold gadgetOffset
    rw [Nat.cast_sum, ← Finset.sum_sub_distrib]
    apply Finset.sum_congr rfl
    intro i hi'
    rw [digit_eq y b i (hi i hi') hb]
    push_cast
    ring
  have e2 := digits_sum y.toNat b L h
  rw [Nat.mod_eq_of_lt (a := y.toNat) (b := 2 ^ 32) y.isLt] at e2
  -- low bits of `y` are those of `x`
  have hoff : ∃ m : ℕ, gadgetOffset b L = ((m * 2 ^ (32 - L * b) : ℕ) : Torus) := by
    refine ⟨∑ i ∈ Finset.range L, 2 ^ (b - 1) * 2 ^ ((L - (i + 1)) * b), ?_⟩
    unfold gadgetOffset
    rw [Finset.sum_mul, Nat.cast_sum]
    apply Finset.sum_congr rfl
    intro i hi'
    have h1 := hi i hi'
    have h2 := Finset.mem_range.1 hi'
    have h3 : (L - (i + 1)) * b + (i + 1) * b = L * b := by
      rw [← Nat.add_mul]; congr 1; omega
    have h4 : 32 - (i + 1) * b = (L - (i + 1)) * b + (32 - L * b) := by omega
    rw [← Nat.cast_mul, mul_assoc, ← pow_add (a := 2) (n := 32 - L * b), ← h4]
  obtain ⟨m, hm⟩ := hoff
  have hlow : y.toNat % 2 ^ (32 - L * b) = x.toNat % 2 ^ (32 - L * b) := by
    rw [hy, hm, natCast_eq, BitVec.toNat_add, BitVec.toNat_ofNat, Nat.add_mod_mod,
      Nat.mod_mod_of_dvd _ (pow_dvd_pow 2 (by omega)), Nat.add_mul_mod_self_right]
  rw [e1]
  have e3 : (((∑ i ∈ Finset.range L, (y.toNat / 2 ^ (32 - (i + 1) * b) % 2 ^ b) * 2 ^ (32 - (i + 1) * b) : ℕ)) : Torus)
      + ((x.toNat % 2 ^ (32 - L * b) : ℕ) : Torus) = y := by
    rw [← hlow, ← Nat.cast_add, e2, natCast_toNat]
  rw [hy] at e3 ⊢
  linear_combination e3

theorem genDecompositionOffset_eq (P : Params) (h1 : P.trgswLv1.BG = 2 ^ P.trgswLv1.BGBIT)
    (h2 : 1 ≤ P.trgswLv1.BGBIT) (h3 : P.trgswLv1.L * P.trgswLv1.BGBIT ≤ 32) :
    genDecompositionOffset P = some (gadgetOffset P.trgswLv1.BGBIT P.trgswLv1.L) := by
  unfold genDecompositionOffset gadgetOffset
  simp only
  rw [forRange_sum P.trgswLv1.L 0 (fun i => ((2 ^ (P.trgswLv1.BGBIT - 1) : ℕ) : Torus) *
    ((2 ^ (32 - (i + 1) * P.trgswLv1.BGBIT) : ℕ) : Torus)), zero_add]
  intro i hi acc
  have : (i + 1) * P.trgswLv1.BGBIT ≤ P.trgswLv1.L * P.trgswLv1.BGBIT := Nat.mul_le_mul_right _ hi
  rw [if_pos (by omega), shl_one_eq, h1]
  congr 3
  rw [natCast_eq]
  congr 1
  obtain ⟨c, hc⟩ : ∃ c, P.trgswLv1.BGBIT = c + 1 := ⟨P.trgswLv1.BGBIT - 1, by omega⟩
  rw [hc, pow_succ]; simp

/-! ### The loops -/

/-- Filling column `j` of the rows `lo, …, lo+L-1`. -/
theorem fill_column (L lo j : ℕ) (out : List (List Torus)) (v : ℕ → Torus)
    (hL : lo + L ≤ out.length) (hrow : ∀ i (hi : i < out.length), j < out[i].length)
    (body : ℕ → List (List Torus) → Option (List (List Torus)))
    (hb : ∀ i < L, ∀ o, body i o = (rd o (i + lo)).bind fun row => (wr row j (v i)).bind fun row => wr o (i + lo) row) :
    ∃ r, forRange 0 L out body = some r ∧ r.length = out.length ∧
      (∀ i, i < L → ∀ row, out[i + lo]? = some row → r[i + lo]? = some (row.set j (v i))) ∧
      (∀ i, i < lo ∨ lo + L ≤ i → r[i]? = out[i]?) := by
  obtain ⟨r, e, h1, h2, h3⟩ := forRange_inv 0 L (Nat.zero_le _) out body
    (fun k r => r.length = out.length ∧
      (∀ i, i < k → ∀ row, out[i + lo]? = some row → r[i + lo]? = some (row.set j (v i))) ∧
      (∀ i, i < lo ∨ lo + k ≤ i → r[i]? = out[i]?))
    ⟨rfl, fun i hi => absurd hi (by omega), fun i _ => rfl⟩ (by
      rintro k r _ hk ⟨hr1, hr2, hr3⟩
      have hkl : k + lo < out.length := by omega
      have hro : r[k + lo]? = some out[k + lo] := by
        rw [hr3 (k + lo) (by omega)]; exact List.getElem?_eq_getElem hkl
      refine ⟨r.set (k + lo) (out[k + lo].set j (v k)), ?_, by simpa using hr1, ?_, ?_⟩
      · rw [hb k hk]
        simp only [rd, hro, Option.bind_some]
        rw [wr_eq _ _ _ (hrow _ hkl), Option.bind_some, wr_eq _ _ _ (by omega)]
      · intro i hi row hrow'
        rw [List.getElem?_set]
        by_cases hik : k + lo = i + lo
        · have : k = i := by omega
          subst this
          rw [if_pos rfl, if_pos (by omega)]
          rw [List.getElem?_eq_getElem hkl] at hrow'
          rw [Option.some.inj hrow']
        · rw [if_neg hik]; exact hr2 i (by omega) row hrow'
      · intro i hi
        rw [List.getElem?_set, if_neg (by omega)]
        exact hr3 i (by omega))
  exact ⟨r, e, h1, h2, fun i hi => h3 i hi⟩

theorem filled_succ_set {α : Type*} (k : ℕ) (g : ℕ → α) (l : List α) (h : k < l.length) :
    (filled k g l).set k (g k) = filled (k + 1) g l := by
  have := wr_filled k g l h
  rw [wr_eq _ _ _ (by rw [length_filled _ _ _ h.le]; exact h)] at this
  exact Option.some.inj this

theorem getElem_filled_row {out : List (List Torus)} {n : ℕ} (h : ∀ row ∈ out, row.length = n)
    (i : ℕ) (row : List Torus) (e : out[i]? = some row) : row.length = n :=
  h row (List.mem_of_getElem? e)

/-- Closed form of `DecomposePolyAssign`. -/
theorem decomposePolyAssign_eq (p : List Torus) (bgbit level : ℕ) (offset : Torus)
    (out : List (List Torus)) (hb : 1 ≤ bgbit) (hL : level ≤ out.length)
    (hrow : ∀ row ∈ out, row.length = p.length) :
    decomposePolyAssign p bgbit level offset out =
      some (tab level (fun i => tab p.length fun j => digit (at' p j + offset) bgbit i)
        ++ out.drop level) := by
  unfold decomposePolyAssign
  rw [if_neg (by omega)]
  obtain ⟨r, e, h1, h2, h3⟩ := forRange_inv 0 p.length (Nat.zero_le _) out
    (fun j out => do
      let pj ← rd p j
      let tmp := pj + offset
      forRange 0 level out fun i out => do
        let row ← rd out i
        let row ← wr row j (digit tmp bgbit i)
        wr out i row)
    (fun k r => r.length = out.length ∧
      (∀ i, i < level → ∀ row, out[i]? = some row →
        r[i]? = some (filled k (fun j => digit (at' p j + offset) bgbit i) row)) ∧
      (∀ i, level ≤ i → r[i]? = out[i]?))
    ⟨rfl, fun i _ row h => by simpa using h, fun i _ => rfl⟩ (by
      rintro j r _ hj ⟨hr1, hr2, hr3⟩
      have hlen : ∀ i (hi : i < r.length), j < r[i].length := by
        intro i hi
        by_cases hil : i < level
        · have := hr2 i hil out[i] (List.getElem?_eq_getElem (by omega))
          rw [List.getElem?_eq_getElem hi] at this
          rw [Option.some.inj this, length_filled _ _ _ (by rw [hrow _ (List.getElem_mem _)]; omega),
            hrow _ (List.getElem_mem _)]
          exact hj
        · have := hr3 i (by omega)
          rw [List.getElem?_eq_getElem hi] at this
          rw [hrow r[i] (List.mem_of_getElem? this.symm)]
          exact hj
      obtain ⟨r', e', g1, g2, g3⟩ := fill_column level 0 j r (fun i => digit (at' p j + offset) bgbit i)
        (by omega) hlen (fun i out => (rd out i).bind fun row =>
          (wr row j (digit (at' p j + offset) bgbit i)).bind fun row => wr out i row)
        (fun i _ o => rfl)
      refine ⟨r', ?_, by omega, ?_, ?_⟩
      · rw [rd_at' p j hj]
        exact e'
      · intro i hi row hro
        have hrl : row.length = p.length := hrow row (List.mem_of_getElem? hro)
        have := g2 i hi _ (hr2 i hi row hro)
        rw [Nat.add_zero] at this
        rw [this, filled_succ_set _ (fun j => digit (at' p j + offset) bgbit i) _ (by omega)]
      · intro i hi
        rw [g3 i (by omega), hr3 i hi])
  rw [e]
  congr 1
  apply List.ext_getElem?
  intro i
  by_cases hi : i < level
  · rw [List.getElem?_append_left (by simpa using hi), getElem?_tab, if_pos hi,
      h2 i hi _ (List.getElem?_eq_getElem (by omega))]
    rw [filled_full' _ _ _ (hrow _ (List.getElem_mem _))]
  · rw [List.getElem?_append_right (by simpa using hi), h3 i (by omega), length_tab,
      List.getElem?_drop, Nat.add_sub_cancel' (by omega)]

/-- Closed form of the coefficient part of `decompositionInPlace`. -/
theorem decompositionCoeffs_eq (l n bgbit : ℕ) (A B : List Torus) (offset : Torus)
    (bufs : List (List Torus)) (hL : l * 2 ≤ bufs.length) (hA : n ≤ A.length) (hB : n ≤ B.length)
    (hrow : ∀ row ∈ bufs, row.length = n) :
    decompositionCoeffs l n bgbit A B offset bufs =
      some (tab l (fun i => tab n fun j => digit (at' A j + offset) bgbit i)
        ++ tab l (fun i => tab n fun j => digit (at' B j + offset) bgbit i) ++ bufs.drop (l * 2)) := by
  unfold decompositionCoeffs
  -- clearing
  have hclear : forRange 0 (l * 2) bufs (fun i bufs => do
      let buf ← rd bufs i
      let buf ← forRange 0 n buf fun j buf => wr buf j 0
      wr bufs i buf) = some (filled (l * 2) (fun _ => tab n fun _ => (0 : Torus)) bufs) := by
    apply forRange_fill _ _ _ hL
    intro i hi
    have e : rd (filled i (fun _ => tab n fun _ => (0 : Torus)) bufs) i = some bufs[i] := by
      unfold rd
      rw [filled_getElem? _ _ _ (by omega), if_neg (by omega), List.getElem?_eq_getElem]
    rw [e]
    simp only [Option.bind_eq_bind, Option.bind_some]
    rw [forRange_fill_full n bufs[i] (fun _ => 0) (hrow _ (List.getElem_mem _)) _ (fun _ _ _ _ => rfl),
      Option.bind_some]
  simp only [Option.bind_eq_bind] at hclear ⊢
  rw [hclear, Option.bind_some]
  set bufs1 := filled (l * 2) (fun _ => tab n fun _ => (0 : Torus)) bufs with hb1
  have hb1l : bufs1.length = bufs.length := length_filled _ _ _ hL
  have hb1row : ∀ row ∈ bufs1, row.length = n := by
    intro row hr
    rw [hb1] at hr
    unfold filled at hr
    rcases List.mem_append.1 hr with h | h
    · obtain ⟨i, -, rfl⟩ := List.mem_map.1 h
      simp
    · exact hrow row (List.mem_of_mem_drop h)
  obtain ⟨r, e, h1, h2, h2', h3⟩ := forRange_inv 0 n (Nat.zero_le _) bufs1
    (fun j bufs => (rd A j).bind fun aj => (rd B j).bind fun bj =>
      (forRange 0 l bufs fun i bufs => (rd bufs i).bind fun buf =>
        (wr buf j (digit (aj + offset) bgbit i)).bind fun buf => wr bufs i buf).bind fun bufs =>
      forRange 0 l bufs fun i bufs => (rd bufs (i + l)).bind fun buf =>
        (wr buf j (digit (bj + offset) bgbit i)).bind fun buf => wr bufs (i + l) buf)
    (fun k r => r.length = bufs.length ∧
      (∀ i, i < l → ∀ row, bufs1[i]? = some row →
        r[i]? = some (filled k (fun j => digit (at' A j + offset) bgbit i) row)) ∧
      (∀ i, i < l → ∀ row, bufs1[i + l]? = some row →
        r[i + l]? = some (filled k (fun j => digit (at' B j + offset) bgbit i) row)) ∧
      (∀ i, l * 2 ≤ i → r[i]? = bufs[i]?))
    ⟨hb1l, fun i _ row h => by simpa using h, fun i _ row h => by simpa using h, fun i hi => by
      rw [hb1, filled_getElem? _ _ _ hL, if_neg (by omega)]⟩ (by
      rintro j r _ hj ⟨hr1, hr2, hr2', hr3⟩
      have hlen : ∀ i (hi : i < r.length), r[i].length = n := by
        intro i hi
        by_cases hil : i < l
        · have := hr2 i hil bufs1[i] (List.getElem?_eq_getElem (by omega))
          rw [List.getElem?_eq_getElem hi] at this
          rw [Option.some.inj this, length_filled _ _ _ (by rw [hb1row _ (List.getElem_mem _)]; omega),
            hb1row _ (List.getElem_mem _)]
        · by_cases hil2 : i < l * 2
          · have := hr2' (i - l) (by omega) bufs1[i - l + l] (List.getElem?_eq_getElem (by omega))
            simp only [Nat.sub_add_cancel (show l ≤ i by omega)] at this
            rw [List.getElem?_eq_getElem hi] at this
            rw [Option.some.inj this, length_filled _ _ _ (by rw [hb1row _ (List.getElem_mem _)]; omega),
              hb1row _ (List.getElem_mem _)]
          · have := hr3 i (by omega)
            rw [List.getElem?_eq_getElem hi] at this
            rw [hrow r[i] (List.mem_of_getElem? this.symm)]
      obtain ⟨r', e', g1, g2, g3⟩ := fill_column l 0 j r (fun i => digit (at' A j + offset) bgbit i)
        (by omega) (fun i hi => by rw [hlen i hi]; exact hj) (fun i out => (rd out i).bind fun row =>
          (wr row j (digit (at' A j + offset) bgbit i)).bind fun row => wr out i row)
        (fun i _ o => rfl)
      have hlen' : ∀ i (hi : i < r'.length), j < r'[i].length := by
        intro i hi
        by_cases hil : i < l
        · have := g2 i hil r[i] (List.getElem?_eq_getElem (by omega))
          rw [Nat.add_zero, List.getElem?_eq_getElem hi] at this
          rw [Option.some.inj this, List.length_set, hlen]
          exact hj
        · have := g3 i (by omega)
          rw [List.getElem?_eq_getElem hi, List.getElem?_eq_getElem (by omega)] at this
          rw [Option.some.inj this, hlen]
          exact hj
      obtain ⟨r'', e'', k1, k2, k3⟩ := fill_column l l j r' (fun i => digit (at' B j + offset) bgbit i)
        (by omega) hlen' (fun i out => (rd out (i + l)).bind fun row =>
          (wr row j (digit (at' B j + offset) bgbit i)).bind fun row => wr out (i + l) row)
        (fun i _ o => rfl)
      refine ⟨r'', ?_, by omega, ?_, ?_, ?_⟩
      · rw [rd_at' A j (by omega), rd_at' B j (by omega), Option.bind_some, Option.bind_some, e',
          Option.bind_some]
        exact e''
      · intro i hi row hro
        have hrl : row.length = n := hb1row row (List.mem_of_getElem? hro)
        have := g2 i hi _ (hr2 i hi row hro)
        rw [Nat.add_zero] at this
        rw [k3 i (by omega), this, filled_succ_set _ (fun j => digit (at' A j + offset) bgbit i) _ (by omega)]
      · intro i hi row hro
        have hrl : row.length = n := hb1row row (List.mem_of_getElem? hro)
        have e1 : r'[i + l]? = some (filled j (fun j => digit (at' B j + offset) bgbit i) row) := by
          rw [g3 (i + l) (by omega)]; exact hr2' i hi row hro
        rw [k2 i hi _ e1, filled_succ_set _ (fun j => digit (at' B j + offset) bgbit i) _ (by omega)]
      · intro i hi
        rw [k3 i (by omega), g3 i (by omega), hr3 i hi])
  rw [e]
  congr 1
  have hb1at : ∀ i < l * 2, bufs1[i]? = some (tab n fun _ => (0 : Torus)) := by
    intro i hi
    rw [hb1, filled_getElem? _ _ _ hL, if_pos hi]
  apply List.ext_getElem?
  intro i
  by_cases hi : i < l
  · rw [List.getElem?_append_left (by simp; omega), List.getElem?_append_left (by simpa using hi),
      getElem?_tab, if_pos hi, h2 i hi _ (hb1at i (by omega)), filled_full' _ _ _ (by simp)]
  · by_cases hi2 : i < l * 2
    · rw [List.getElem?_append_left (by simp; omega), List.getElem?_append_right (by simpa using hi),
        length_tab, getElem?_tab, if_pos (by omega)]
      have := h2' (i - l) (by omega) _ (hb1at (i - l + l) (by omega))
      rw [Nat.sub_add_cancel (by omega)] at this
      rw [this, filled_full' _ _ _ (by simp)]
    · rw [List.getElem?_append_right (by simp; omega), h3 i (by omega), List.length_append, length_tab,
        length_tab, List.getElem?_drop]
      congr 1; omega

end GoTfhe
