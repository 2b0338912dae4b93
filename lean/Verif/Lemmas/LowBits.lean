import Verif.Spec.KeyMasks
import Verif.Lemmas.Avg
import Verif.Lemmas.FinTorus
import Verif.Lemmas.Torus
import Verif.Lemmas.Rotate
import Verif.Spec.Negacyclic
import Mathlib.Analysis.SpecialFunctions.Exp
import Mathlib.Analysis.Complex.Exponential
import Mathlib.NumberTheory.Padics.PadicVal.Basic

/-!
# The low bits of a uniform polynomial times `X^a - 1`

The numbers are those of the parameter sets for gates: of 32 bits the gadget decomposition keeps 18 and loses 14.
-/

namespace GoTfhe

open Finset

/-- The 14 lost bits. -/
def low (x : Torus) : ℕ := x.toNat % 16384

/-- A bound for `c * (low (x + δ) - 2^13)`, for `c` one of `-1`, `0`, `1` and all disturbances `δ` up to 64. -/
def lowUp (c : ℤ) (x : Torus) : ℤ :=
  if c = 1 then low x - 8192 + 64 + (if low x < 64 then 16384 else 0)
  else if c = -1 then 8192 - low x + 64 + (if 16320 ≤ low x then 16384 else 0)
  else 0

theorem toInt_small (δ : Torus) (h : nrm δ ≤ 64) : δ.toNat ≤ 64 ∨ 4294967296 - 64 ≤ δ.toNat := by
  unfold nrm at h
  rw [BitVec.toInt_eq_toNat_cond] at h
  have := δ.isLt
  split_ifs at h <;> omega

theorem lowUp_le (c : ℤ) (hc : c = 1 ∨ c = -1 ∨ c = 0) (x δ : Torus) (h : nrm δ ≤ 64) :
    c * ((low (x + δ) : ℤ) - 8192) ≤ lowUp c x := by
  have hδ := toInt_small δ h
  have h1 := x.isLt
  have h2 := δ.isLt
  unfold lowUp low
  rw [BitVec.toNat_add]
  rcases hc with rfl | rfl | rfl
  · rw [if_pos rfl]
    split_ifs <;> omega
  · rw [if_neg (by norm_num), if_pos rfl]
    split_ifs <;> omega
  · norm_num

theorem abs_lowUp (c : ℤ) (x : Torus) : |lowUp c x| ≤ 8320 := by
  have : low x < 16384 := Nat.mod_lt _ (by norm_num)
  unfold lowUp
  rw [abs_le]
  split_ifs <;> constructor <;> omega

theorem sum_cyc {M : Type*} [AddCommMonoid M] (n j : ℕ) (f : ℕ → M) :
    ∑ s ∈ range n, f ((j + s) % n) = ∑ s ∈ range n, f s := by
  rcases Nat.eq_zero_or_pos n with rfl | hn
  · rfl
  refine sum_nbij' (fun s => (j + s) % n) (fun s => (s + (n - j % n)) % n) ?_ ?_ ?_ ?_ ?_
  · intro s _
    exact mem_range.2 (Nat.mod_lt _ hn)
  · intro s _
    exact mem_range.2 (Nat.mod_lt _ hn)
  · intro s hs
    have hs := mem_range.1 hs
    have hj := Nat.mod_lt j hn
    have e := Nat.div_add_mod j n
    beta_reduce
    rw [Nat.mod_add_mod]
    rw [show j + s + (n - j % n) = s + n + n * (j / n) by omega, Nat.add_mul_mod_self_left, Nat.add_mod_right,
      Nat.mod_eq_of_lt hs]
  · intro s hs
    have hs := mem_range.1 hs
    have hj := Nat.mod_lt j hn
    have e := Nat.div_add_mod j n
    beta_reduce
    rw [Nat.add_mod_mod]
    rw [show j + (s + (n - j % n)) = s + n + n * (j / n) by omega, Nat.add_mul_mod_self_left, Nat.add_mod_right,
      Nat.mod_eq_of_lt hs]
  · intro s _; rfl

theorem low_shift (g : ℕ) (hg : g = 32 ∨ g = 64) (x : Torus) (s : ℕ) (hs : s < 8192 / g) :
    low (x + 2 * (g : Torus) * ((s : ℕ) : Torus))
      = x.toNat % (2 * g) + 2 * g * ((low x / (2 * g) + s) % (8192 / g)) := by
  have h1 := x.isLt
  have h2 : (2 * (g : Torus) * ((s : ℕ) : Torus) : Torus).toNat = 2 * g * s := by
    rw [show (2 * (g : Torus) * ((s : ℕ) : Torus) : Torus) = ((2 * g * s : ℕ) : Torus) by push_cast; rfl,
      show ((2 * g * s : ℕ) : Torus).toNat = 2 * g * s % 4294967296 from BitVec.toNat_ofNat _ _]
    rcases hg with rfl | rfl <;> norm_num at hs ⊢ <;> omega
  unfold low
  rw [BitVec.toNat_add, h2]
  rcases hg with rfl | rfl <;> norm_num at hs ⊢ <;> omega

/-- Over the words that agree with `x` modulo `2 g` the bound is small on average. -/
theorem sum_lowUp (g : ℕ) (hg : g = 32 ∨ g = 64) (c : ℤ) (x : Torus) :
    ∑ s ∈ range (8192 / g), lowUp c (x + 2 * (g : Torus) * ((s : ℕ) : Torus)) ≤ (8192 / g : ℕ) * (128 + g : ℕ) := by
  set r := x.toNat % (2 * g) with hr
  have hr64 : r < 2 * g := Nat.mod_lt _ (by omega)
  set f : ℕ → ℤ := fun l => if c = 1 then (l : ℤ) - 8192 + 64 + (if l < 64 then 16384 else 0)
    else if c = -1 then 8192 - (l : ℤ) + 64 + (if 16320 ≤ l then 16384 else 0) else 0 with hf
  have e : ∀ s ∈ range (8192 / g), lowUp c (x + 2 * (g : Torus) * ((s : ℕ) : Torus))
      = f (r + 2 * g * ((low x / (2 * g) + s) % (8192 / g))) := by
    intro s hs
    rw [hr, ← low_shift g hg x s (mem_range.1 hs)]
    rfl
  rw [sum_congr rfl e, sum_cyc (8192 / g) _ fun s => f (r + 2 * g * s)]
  have gauss1 : ∑ s ∈ range 256, (s : ℤ) = 32640 := by decide +kernel
  have gauss2 : ∑ s ∈ range 128, (s : ℤ) = 8128 := by decide +kernel
  clear_value r
  by_cases h1 : c = 1
  · have e2 : ∀ s ∈ range (8192 / g), f (r + 2 * g * s)
        ≤ ((r : ℤ) - 8128) + 2 * g * (s : ℤ) + (if s = 0 then (if r < 64 then 16384 else 0) else 0) := by
      intro s _
      simp only [hf, if_pos h1]
      rcases hg with rfl | rfl <;> split_ifs <;> push_cast <;> omega
    refine (sum_le_sum e2).trans ?_
    rw [sum_add_distrib, sum_add_distrib, ← mul_sum, sum_const, card_range, sum_ite_eq']
    simp only [nsmul_eq_mul]
    rcases hg with rfl | rfl
    · norm_num [gauss1]
      split_ifs <;> omega
    · norm_num [gauss2]
      split_ifs <;> omega
  by_cases h2 : c = -1
  · have e2 : ∀ s ∈ range (8192 / g), f (r + 2 * g * s)
        ≤ (8256 - (r : ℤ)) - 2 * g * (s : ℤ)
          + (if s = 8192 / g - 1 then (if 2 * g ≤ r + 64 then 16384 else 0) else 0) := by
      intro s hs
      have hs := mem_range.1 hs
      simp only [hf, if_neg h1, if_pos h2]
      rcases hg with rfl | rfl <;> norm_num at hs ⊢ <;> split_ifs <;> push_cast <;> omega
    refine (sum_le_sum e2).trans ?_
    rw [sum_add_distrib, sum_sub_distrib, ← mul_sum, sum_const, card_range, sum_ite_eq']
    simp only [nsmul_eq_mul]
    rcases hg with rfl | rfl
    · norm_num [gauss1]
      omega
    · norm_num [gauss2]
      split_ifs <;> omega
  · have e2 : ∀ s ∈ range (8192 / g), f (r + 2 * g * s) = 0 := by
      intro s _
      simp only [hf, if_neg h1, if_neg h2]
    rw [sum_congr rfl e2, sum_const_zero]
    exact mul_nonneg (Int.natCast_nonneg _) (Int.natCast_nonneg _)

/-- The exponential moment of one coefficient. -/
noncomputable def lowMgf (g : ℕ) (θ : ℝ) (c : ℤ) : ℝ :=
  if c = 0 then 1 else Real.exp ((128 + g : ℕ) * θ + 8320 ^ 2 * θ ^ 2)

theorem lowMgf_pos (g : ℕ) (θ : ℝ) (c : ℤ) : 0 < lowMgf g θ c := by
  unfold lowMgf
  split_ifs
  · norm_num
  · exact Real.exp_pos _

theorem sum_exp_lowUp (g : ℕ) (hg : g = 32 ∨ g = 64) (θ : ℝ) (h0 : 0 ≤ θ) (h1 : θ * 8320 ≤ 1) (c : ℤ) (x : Torus) :
    ∑ s ∈ range (8192 / g), Real.exp (θ * (lowUp c (x + 2 * (g : Torus) * ((s : ℕ) : Torus)) : ℤ)) ≤ (8192 / g : ℕ) * lowMgf g θ c := by
  unfold lowMgf
  by_cases hc : c = 0
  · subst hc
    have : ∀ y, lowUp 0 y = 0 := fun y => by unfold lowUp; norm_num
    simp only [this]
    simp
  rw [if_neg hc]
  have hb : ∀ y : Torus, Real.exp (θ * (lowUp c y : ℤ)) ≤ 1 + θ * (lowUp c y : ℤ) + θ ^ 2 * 8320 ^ 2 := by
    intro y
    have ha : |((lowUp c y : ℤ) : ℝ)| ≤ 8320 := by
      rw [← Int.cast_abs]; exact_mod_cast abs_lowUp c y
    have hz : |θ * ((lowUp c y : ℤ) : ℝ)| ≤ θ * 8320 := by
      rw [abs_mul, abs_of_nonneg h0]
      exact mul_le_mul_of_nonneg_left ha h0
    have h := Real.abs_exp_sub_one_sub_id_le (hz.trans h1)
    have h' := (abs_le.1 h).2
    have hsq : (θ * ((lowUp c y : ℤ) : ℝ)) ^ 2 ≤ (θ * 8320) ^ 2 := sq_le_sq' (by linarith [(abs_le.1 hz).1]) (abs_le.1 hz).2
    nlinarith
  have hs : (∑ s ∈ range (8192 / g), ((lowUp c (x + 2 * (g : Torus) * ((s : ℕ) : Torus)) : ℤ) : ℝ)) ≤ (8192 / g : ℕ) * (128 + g : ℕ) := by
    have := sum_lowUp g hg c x
    rw [← Int.cast_sum]
    have h2 : ((∑ s ∈ range (8192 / g), lowUp c (x + 2 * (g : Torus) * ((s : ℕ) : Torus)) : ℤ) : ℝ)
        ≤ (((8192 / g : ℕ) * (128 + g : ℕ) : ℤ) : ℝ) := Int.cast_le.2 this
    rw [Int.cast_mul, Int.cast_natCast, Int.cast_natCast] at h2
    exact h2
  calc _ ≤ ∑ s ∈ range (8192 / g), (1 + θ * (lowUp c (x + 2 * (g : Torus) * ((s : ℕ) : Torus)) : ℤ) + θ ^ 2 * 8320 ^ 2) :=
        sum_le_sum fun s _ => hb _
    _ = (8192 / g : ℕ) + θ * (∑ s ∈ range (8192 / g), ((lowUp c (x + 2 * (g : Torus) * ((s : ℕ) : Torus)) : ℤ) : ℝ)) + (8192 / g : ℕ) * (θ ^ 2 * 8320 ^ 2) := by
        rw [sum_add_distrib, sum_add_distrib, ← mul_sum]
        simp
    _ ≤ (8192 / g : ℕ) * (((128 + g : ℕ) * θ + 8320 ^ 2 * θ ^ 2) + 1) := by nlinarith
    _ ≤ _ := mul_le_mul_of_nonneg_left (Real.add_one_le_exp _) (Nat.cast_nonneg _)

/-! ### Differences -/

/-- Where coefficient `k` of `X^a y` comes from. -/
def srcIx (N : ℕ) (a : ℤ) (k : ℕ) : ℕ := (((k : ℤ) - a) % N).toNat

/-- Coefficient `k` of `X^a y - y`, with `^0 - x` for `-x` as in the library. -/
def dif (N : ℕ) (a : ℤ) (y : ℕ → Torus) (k : ℕ) : Torus := extG compl N y (k - a) - y k

theorem dif_eq (N : ℕ) (a : ℤ) (y : ℕ → Torus) (k : ℕ) :
    dif N a y k = (if (((k : ℤ) - a) / N) % 2 = 0 then y (srcIx N a k) else compl (y (srcIx N a k))) - y k := rfl

theorem srcIx_lt (N : ℕ) (hN : 0 < N) (a : ℤ) (k : ℕ) : srcIx N a k < N := by
  unfold srcIx
  have h1 := Int.emod_nonneg ((k : ℤ) - a) (show (N : ℤ) ≠ 0 by omega)
  have h2 := Int.emod_lt_of_pos ((k : ℤ) - a) (show (0 : ℤ) < N by omega)
  omega

/-- The coefficients of a disturbed polynomial. -/
theorem dif_near (N : ℕ) (hN : 0 < N) (a : ℤ) (y e : ℕ → Torus) (k : ℕ) (hk : k < N) (E : ℕ)
    (he : ∀ i < N, nrm (e i) ≤ E) : ∃ δ, nrm δ ≤ 2 * E ∧ dif N a (fun i => y i + e i) k = dif N a y k + δ := by
  have h1 := he k hk
  have h2 := he (srcIx N a k) (srcIx_lt N hN a k)
  simp only [dif_eq]
  split_ifs
  · refine ⟨e (srcIx N a k) - e k, (nrm_sub _ _).trans (by omega), by ring⟩
  · refine ⟨-e (srcIx N a k) - e k, (nrm_sub _ _).trans (by rw [nrm_neg]; omega), ?_⟩
    rw [compl_eq, compl_eq]; ring

theorem polyOf_fin {N : ℕ} (u : Fin N → Torus) (k : Fin N) : polyOf u k = u k := by
  unfold polyOf; rw [dif_pos k.isLt]

/-- The polynomial `y + g u`. -/
def bump (g : Torus) {N : ℕ} (y : ℕ → Torus) (u : Fin N → Torus) (k : ℕ) : Torus := y k + g * polyOf u k

theorem bump_update (g : Torus) {N : ℕ} (y : ℕ → Torus) (u : Fin N → Torus) (k : Fin N) (t : Torus) (i : ℕ) :
    bump g y (Function.update u k t) i = bump g y (Function.update u k 0) i + if i = k then g * t else 0 := by
  unfold bump polyOf
  by_cases hi : i < N
  · rw [dif_pos hi, dif_pos hi]
    by_cases h : i = k
    · have : (⟨i, hi⟩ : Fin N) = k := Fin.ext h
      rw [if_pos h, this, Function.update_self, Function.update_self]; ring
    · have : (⟨i, hi⟩ : Fin N) ≠ k := fun hh => h (congrArg Fin.val hh)
      rw [if_neg h, Function.update_of_ne this, Function.update_of_ne this]; ring
  · rw [dif_neg hi, dif_neg hi, if_neg (by have := k.isLt; omega)]; ring

theorem dif_bump_other (g : Torus) {N : ℕ} (a : ℤ) (y : ℕ → Torus) (u : Fin N → Torus) (k : Fin N) (t : Torus)
    (k' : ℕ) (h1 : k' ≠ k) (h2 : srcIx N a k' ≠ k) :
    dif N a (bump g y (Function.update u k t)) k' = dif N a (bump g y (Function.update u k 0)) k' := by
  simp only [dif_eq]
  rw [bump_update, bump_update g y u k t k', if_neg h1, if_neg h2, add_zero, add_zero]

/-- Changing coefficient `k` changes the difference at `k` by `g` or `2 g` times the change. -/
theorem dif_bump_self (g : Torus) {N : ℕ} (hN : 0 < N) (a : ℤ) (ha : 0 < a) (ha2 : a < 2 * N) (y : ℕ → Torus) (u : Fin N → Torus)
    (k : Fin N) :
    (∀ t, dif N a (bump g y (Function.update u k t)) k = dif N a (bump g y (Function.update u k 0)) k - g * t) ∨
    (∀ t, dif N a (bump g y (Function.update u k t)) k = dif N a (bump g y (Function.update u k 0)) k - 2 * g * t) := by
  by_cases h : srcIx N a k = k
  · right
    intro t
    have hw : ¬ (((k : ℕ) : ℤ) - a) / N % 2 = 0 := by
      have hk := k.isLt
      have e := Int.mul_ediv_add_emod (((k : ℕ) : ℤ) - a) N
      have hr := Int.emod_nonneg (((k : ℕ) : ℤ) - a) (show (N : ℤ) ≠ 0 by omega)
      unfold srcIx at h
      have h' : ((((k : ℕ) : ℤ) - a) % N) = k := by omega
      rw [h'] at e
      have e1 : (N : ℤ) * ((((k : ℕ) : ℤ) - a) / N) = -a := by omega
      generalize (((k : ℕ) : ℤ) - a) / N = z at *
      have h1 : z < 0 := by
        by_contra hz
        have : 0 ≤ (N : ℤ) * z := mul_nonneg (by omega) (by omega)
        omega
      have h2 : -2 < z := by
        by_contra hz
        have : (N : ℤ) * z ≤ N * (-2) := mul_le_mul_of_nonneg_left (by omega) (by omega)
        omega
      omega
    simp only [dif_eq, if_neg hw, h]
    rw [bump_update, if_pos rfl, compl_eq, compl_eq]
    ring
  · left
    intro t
    simp only [dif_eq]
    rw [bump_update, bump_update g y u k t k, if_pos rfl, if_neg h, add_zero]
    ring

private theorem shift1 {R : Type*} [CommRing R] (X g t q : R) : X - g * (t + -(2 * q)) = X - g * t + 2 * g * q := by ring

private theorem shift2 {R : Type*} [CommRing R] (X g t q : R) : X - 2 * g * (t + -q) = X - 2 * g * t + 2 * g * q := by ring

/-- The coefficients of a set in which no one feeds another are independent. -/
theorem avg_prod_dif (b : Torus) {N : ℕ} (hN : 0 < N) (a : ℤ) (ha : 0 < a) (ha2 : a < 2 * N) (K : Finset (Fin N))
    (hK : ∀ k ∈ K, ∀ k' ∈ K, k' ≠ k → srcIx N a k' ≠ k) (g : Fin N → Torus → ℝ) (hg : ∀ k x, 0 ≤ g k x)
    (B : Fin N → ℝ) (hB0 : ∀ k, 0 ≤ B k)
    (hB : ∀ k ∈ K, ∃ S : ℕ, 0 < S ∧ ∃ q : ℕ → Torus, ∀ x, ∑ s ∈ range S, g k (x + 2 * b * q s) ≤ S * B k)
    (y : ℕ → Torus) :
    avg (fun u : Fin N → Torus => ∏ k ∈ K, g k (dif N a (bump b y u) k)) ≤ ∏ k ∈ K, B k := by
  classical
  induction K using Finset.induction_on with
  | empty =>
    simp only [prod_empty]
    exact le_of_eq (avg_const 1)
  | insert k K hk ih =>
    have ih' := ih (fun i hi j hj => hK i (mem_insert_of_mem hi) j (mem_insert_of_mem hj))
      (fun i hi => hB i (mem_insert_of_mem hi))
    simp only [prod_insert hk]
    have key : avg (fun u : Fin N → Torus => (∏ i ∈ K, g i (dif N a (bump b y u) i)) * g k (dif N a (bump b y u) k))
        ≤ B k * avg (fun u : Fin N → Torus => ∏ i ∈ K, g i (dif N a (bump b y u) i)) := by
      refine avg_mul_update k _ _ ?_ (fun u => prod_nonneg fun i _ => hg _ _) _ ?_
      · intro u x
        refine prod_congr rfl fun i hi => ?_
        have hne : i ≠ k := fun h => hk (h ▸ hi)
        have hne' : ((i : Fin N) : ℕ) ≠ k := fun h => hne (Fin.ext h)
        have hs := hK k (mem_insert_self _ _) i (mem_insert_of_mem hi) hne
        rw [dif_bump_other b a y u k x i hne' hs]
        conv_rhs => rw [← Function.update_eq_self k u]
        rw [dif_bump_other b a y u k (u k) i hne' hs]
      · intro u _
        obtain ⟨S, hS, q, h⟩ := hB k (mem_insert_self _ _)
        set X := dif N a (bump b y (Function.update u k 0)) k with hX
        rcases dif_bump_self b hN a ha ha2 y u k with h32 | h64
        · rw [show (fun t => g k (dif N a (bump b y (Function.update u k t)) k)) = fun t => g k (X - b * t) from
            funext fun t => congrArg (g k) (h32 t)]
          refine avg_shift (g k) (fun t => X - b * t) S hS (fun s => -(2 * q s)) _ fun t => ?_
          refine le_trans (le_of_eq (sum_congr rfl fun s _ => ?_)) (h (X - b * t))
          exact congrArg (g k) (shift1 _ _ _ _)
        · rw [show (fun t => g k (dif N a (bump b y (Function.update u k t)) k)) = fun t => g k (X - 2 * b * t) from
            funext fun t => congrArg (g k) (h64 t)]
          refine avg_shift (g k) (fun t => X - 2 * b * t) S hS (fun s => -(q s)) _ fun t => ?_
          refine le_trans (le_of_eq (sum_congr rfl fun s _ => ?_)) (h (X - 2 * b * t))
          exact congrArg (g k) (shift2 _ _ _ _)
    simp only [mul_comm (g k _)]
    exact key.trans (mul_le_mul_of_nonneg_left ih' (hB0 k))

/-- Two colours, such that no coefficient feeds another one of its own colour. -/
theorem exists_colour (n : ℕ) (a : ℤ) (ha : 0 < a) (ha2 : a < 2 * (2 ^ n : ℕ)) :
    ∃ col : ℕ → Bool, ∀ k < 2 ^ n, srcIx (2 ^ n) a k = k ∨ col (srcIx (2 ^ n) a k) ≠ col k := by
  by_cases hz : a % (2 ^ n : ℕ) = 0
  · refine ⟨fun _ => true, fun k hk => Or.inl ?_⟩
    unfold srcIx
    rw [Int.sub_emod, hz, sub_zero, Int.emod_emod_of_dvd _ dvd_rfl, Int.emod_eq_of_lt (by omega) (by exact_mod_cast hk)]
    simp
  obtain ⟨b, hb⟩ : ∃ b : ℕ, a = b := ⟨a.toNat, by omega⟩
  subst hb
  have hb0 : b ≠ 0 := by omega
  obtain ⟨v, m, hm, hbm⟩ := Nat.exists_eq_two_pow_mul_odd hb0
  have hv : v < n := by
    by_contra hv
    apply hz
    have : (2 ^ n : ℕ) ∣ b := by
      rw [hbm]
      exact (pow_dvd_pow 2 (by omega)).trans (dvd_mul_right _ _)
    exact Int.emod_eq_zero_of_dvd (by exact_mod_cast this)
  refine ⟨fun k => decide (((k : ℤ) / (2 ^ v : ℕ)) % 2 = 0), fun k hk => Or.inr ?_⟩
  have hN : (0 : ℤ) < (2 ^ n : ℕ) := by positivity
  have h1 := Int.emod_nonneg ((k : ℤ) - b) hN.ne'
  have h2 := Int.mul_ediv_add_emod ((k : ℤ) - b) (2 ^ n : ℕ)
  have hs : ((srcIx (2 ^ n) b k : ℕ) : ℤ) = ((k : ℤ) - b) % (2 ^ n : ℕ) := by
    unfold srcIx
    exact Int.toNat_of_nonneg h1
  have hpow : ((2 ^ n : ℕ) : ℤ) = (2 ^ v : ℕ) * (2 * (2 ^ (n - v - 1) : ℕ)) := by
    have : (2 : ℕ) ^ n = 2 ^ v * (2 * 2 ^ (n - v - 1)) := by
      rw [← pow_succ', ← pow_add]; congr 1; omega
    exact_mod_cast this
  obtain ⟨c, hc⟩ := hm
  set z := ((k : ℤ) - b) / (2 ^ n : ℕ) with hzd
  have hsrc : ((srcIx (2 ^ n) b k : ℕ) : ℤ)
      = k + (2 ^ v : ℕ) * (-(2 * (c : ℤ) + 1) - 2 * (2 ^ (n - v - 1) : ℕ) * z) := by
    rw [hs]
    have hb' : (b : ℤ) = (2 ^ v : ℕ) * (2 * (c : ℤ) + 1) := by
      rw [hbm, hc]; push_cast; ring
    have : ((k : ℤ) - b) % (2 ^ n : ℕ) = k - b - (2 ^ n : ℕ) * z := by linarith
    rw [this, hpow, hb']
    ring
  have hpv : (0 : ℤ) < (2 ^ v : ℕ) := by positivity
  simp only [hsrc, Int.add_mul_ediv_left _ _ hpv.ne', ne_eq, decide_eq_decide]
  generalize (k : ℤ) / (2 ^ v : ℕ) = κ
  generalize ((2 ^ (n - v - 1) : ℕ) : ℤ) * z = w at *
  have : ∀ p q : ℤ, 2 * p * q = 2 * (p * q) := fun p q => by ring
  rw [this]
  generalize ((2 ^ (n - v - 1) : ℕ) : ℤ) * z = w
  omega

/-- **The lost bits**, exponential moment: of `X^a y - y` for `y` uniform modulo `g`. -/
theorem mgf_dif (g : ℕ) (hg : g = 32 ∨ g = 64) (n : ℕ) (a : ℤ) (ha : 0 < a) (ha2 : a < 2 * (2 ^ n : ℕ)) (cf : Fin (2 ^ n) → ℤ) (θ : ℝ) (h0 : 0 ≤ θ)
    (h1 : 2 * θ * 8320 ≤ 1) (y : ℕ → Torus) :
    avg (fun u : Fin (2 ^ n) → Torus => Real.exp (θ * ∑ k, ((lowUp (cf k) (dif (2 ^ n) a (bump (g : Torus) y u) k) : ℤ) : ℝ)))
      ≤ Real.exp ((univ.filter fun k => cf k ≠ 0).card * ((128 + g : ℕ) * θ + 2 * 8320 ^ 2 * θ ^ 2)) := by
  classical
  have hN : 0 < 2 ^ n := by positivity
  obtain ⟨col, hcol⟩ := exists_colour n a ha ha2
  set F : Bool → (Fin (2 ^ n) → Torus) → ℝ := fun b u => ∏ k ∈ univ.filter (fun k : Fin (2 ^ n) => col k = b),
    Real.exp (θ * ((lowUp (cf k) (dif (2 ^ n) a (bump (g : Torus) y u) k) : ℤ) : ℝ)) with hF
  have hsplit : ∀ u, Real.exp (θ * ∑ k, ((lowUp (cf k) (dif (2 ^ n) a (bump (g : Torus) y u) k) : ℤ) : ℝ)) = F true u * F false u := by
    intro u
    rw [mul_sum, Real.exp_sum, ← prod_filter_mul_prod_filter_not univ (fun k : Fin (2 ^ n) => col k = true)]
    simp only [hF, Bool.not_eq_true]
  have hcolB : ∀ b, avg (fun u => F b u ^ 2)
      ≤ ∏ k ∈ univ.filter (fun k : Fin (2 ^ n) => col k = b), lowMgf g (2 * θ) (cf k) := by
    intro b
    have e : ∀ u, F b u ^ 2 = ∏ k ∈ univ.filter (fun k : Fin (2 ^ n) => col k = b),
        Real.exp (2 * θ * ((lowUp (cf k) (dif (2 ^ n) a (bump (g : Torus) y u) k) : ℤ) : ℝ)) := by
      intro u
      simp only [hF, ← prod_pow]
      refine prod_congr rfl fun k _ => ?_
      rw [← Real.exp_nat_mul]
      congr 1
      push_cast
      ring
    simp only [e]
    refine avg_prod_dif (g : Torus) hN a ha ha2 _ ?_ (fun k x => Real.exp (2 * θ * ((lowUp (cf k) x : ℤ) : ℝ)))
      (fun _ _ => (Real.exp_pos _).le) (fun k => lowMgf g (2 * θ) (cf k)) (fun k => (lowMgf_pos _ _ _).le) ?_ y
    · intro k hk k' hk' hne hs
      have hk := (mem_filter.1 hk).2
      have hk' := (mem_filter.1 hk').2
      rcases hcol k' k'.isLt with h | h
      · exact hne (Fin.ext (by rw [← h, hs]))
      · rw [hs, hk, hk'] at h
        exact h rfl
    · intro k _
      exact ⟨8192 / g, by rcases hg with rfl | rfl <;> norm_num, fun s => ((s : ℕ) : Torus), fun x =>
        sum_exp_lowUp g hg (2 * θ) (by linarith) (by linarith) (cf k) x⟩
  have hprod : (∏ k ∈ univ.filter (fun k : Fin (2 ^ n) => col k = true), lowMgf g (2 * θ) (cf k))
      * (∏ k ∈ univ.filter (fun k : Fin (2 ^ n) => col k = false), lowMgf g (2 * θ) (cf k))
      = Real.exp ((univ.filter fun k => cf k ≠ 0).card * ((128 + g : ℕ) * θ + 2 * 8320 ^ 2 * θ ^ 2)) ^ 2 := by
    have : ∀ k : Fin (2 ^ n), (col k = false) = ¬ (col k = true) := fun k => by simp
    simp only [this]
    rw [prod_filter_mul_prod_filter_not univ (fun k : Fin (2 ^ n) => col k = true)]
    have e : ∀ k : Fin (2 ^ n), lowMgf g (2 * θ) (cf k)
        = if cf k ≠ 0 then Real.exp ((128 + g : ℕ) * (2 * θ) + 8320 ^ 2 * (2 * θ) ^ 2) else 1 := by
      intro k
      unfold lowMgf
      split_ifs <;> first | rfl | contradiction
    simp only [e]
    rw [← prod_filter, prod_const, ← Real.exp_nat_mul, ← Real.exp_nat_mul]
    congr 1
    push_cast
    ring
  simp only [hsplit]
  refine abs_le_of_sq_le_sq' ?_ (Real.exp_pos _).le |>.2
  refine (avg_mul_sq _ _).trans ?_
  rw [← hprod]
  exact mul_le_mul (hcolB true) (hcolB false) (avg_nonneg fun u => sq_nonneg _)
    (prod_nonneg fun k _ => (lowMgf_pos _ _ _).le)

/-- The top digit of some word near `x` can be a multiple of 32. -/
def topBad (off x : Torus) : Prop := (x + off + 64).toNat % 2147483648 < 67108864 + 128

instance (off x : Torus) : Decidable (topBad off x) := by unfold topBad; infer_instance

/-- It is unlikely that all top digits are multiples of 32. -/
theorem bad_dif (g : ℕ) (hg : g = 32 ∨ g = 64) (n : ℕ) (hn : 1 ≤ n) (a : ℤ) (ha : 0 < a) (ha2 : a < 2 * (2 ^ n : ℕ)) (off : Torus) (y : ℕ → Torus) :
    avg (fun u : Fin (2 ^ n) → Torus => if ∀ k : Fin (2 ^ n), topBad off (dif (2 ^ n) a (bump (g : Torus) y u) k) then (1 : ℝ) else 0)
      ≤ (1 / 2) ^ 2 ^ (n - 1) := by
  classical
  have hN : 0 < 2 ^ n := by positivity
  obtain ⟨col, hcol⟩ := exists_colour n a ha ha2
  obtain ⟨b, hb⟩ : ∃ b, 2 ^ (n - 1) ≤ (univ.filter (fun k : Fin (2 ^ n) => col k = b)).card := by
    by_contra h
    push Not at h
    have h1 := h true
    have h2 := h false
    have h3 := Finset.card_filter_add_card_filter_not (s := (univ : Finset (Fin (2 ^ n)))) (fun k => col k = true)
    simp only [Bool.not_eq_true, card_univ, Fintype.card_fin] at h3
    have : 2 ^ n = 2 ^ (n - 1) + 2 ^ (n - 1) := by
      rw [← two_mul, ← pow_succ']; congr 1; omega
    omega
  set K := univ.filter (fun k : Fin (2 ^ n) => col k = b)
  have key := avg_prod_dif (g : Torus) hN a ha ha2 K ?_ (fun _ x => if topBad off x then (1 : ℝ) else 0)
    (fun _ x => by split_ifs <;> norm_num) (fun _ => 1 / 2) (fun _ => by norm_num) ?_ y
  · refine (avg_mono fun u => ?_).trans (key.trans ?_)
    · by_cases h : ∀ k : Fin (2 ^ n), topBad off (dif (2 ^ n) a (bump (g : Torus) y u) k)
      · rw [if_pos h, prod_congr rfl fun k _ => if_pos (h k)]
        simp
      · rw [if_neg h]
        exact prod_nonneg fun k _ => by split_ifs <;> norm_num
    · rw [prod_const]
      exact pow_le_pow_of_le_one (by norm_num) (by norm_num) hb
  · intro k hk k' hk' hne hs
    have hk := (mem_filter.1 hk).2
    have hk' := (mem_filter.1 hk').2
    rcases hcol k' k'.isLt with h | h
    · exact hne (Fin.ext (by rw [← h, hs]))
    · rw [hs, hk, hk'] at h
      exact h rfl
  · intro k _
    obtain ⟨w, hw⟩ : ∃ w : Torus, 2 * (g : Torus) * w = 536870912#32 := by
      rcases hg with rfl | rfl
      · exact ⟨8388608, by decide⟩
      · exact ⟨4194304, by decide⟩
    refine ⟨2, by norm_num, fun s => if s = 0 then 0 else w, fun x => ?_⟩
    rw [sum_range_succ, sum_range_one]
    have : ¬ (topBad off (x + 2 * (g : Torus) * 0) ∧ topBad off (x + 2 * (g : Torus) * w)) := by
      unfold topBad
      rw [show x + 2 * (g : Torus) * 0 + off + 64 = x + off + 64 by ring,
        show x + 2 * (g : Torus) * w + off + 64 = (x + off + 64) + 536870912#32 by rw [← hw]; ring]
      generalize x + off + 64 = z
      have := z.isLt
      rw [BitVec.toNat_add]
      rw [show (536870912#32 : Torus).toNat = 536870912 from rfl]
      omega
    simp only [if_true, one_ne_zero, if_false]
    by_cases h1 : topBad off (x + 2 * (g : Torus) * 0)
    · have h2 : ¬ topBad off (x + 2 * (g : Torus) * w) := fun h => this ⟨h1, h⟩
      rw [if_pos h1, if_neg h2]; norm_num
    · rw [if_neg h1]
      split_ifs <;> norm_num

end GoTfhe
