import Verif.Lemmas.Avg
import Mathlib.Analysis.SpecialFunctions.Exp

/-!
# Sums of terms that are refreshed by earlier steps

Step `i` of a chain adds the term `X i`. It depends on the masks of the steps before it, and on average over the mask of
the last active step its exponential is small, as long as that step was good.
-/

namespace GoTfhe

open Finset

/-- A chain of `n` steps with masks in `M`. Steps for which `nz` fails do nothing. -/
structure Chain (n : ℕ) (M : Type*) [Fintype M] where
  nz : ℕ → Prop
  X : ℕ → (Fin n → M) → ℝ
  G : ℕ → (Fin n → M) → Prop
  /-- The masks of later steps do not matter. -/
  X_past : ∀ (t : ℕ) ω (i : Fin n) x, t ≤ (i : ℕ) → X t (Function.update ω i x) = X t ω
  G_past : ∀ (t : ℕ) ω (i : Fin n) x, t ≤ (i : ℕ) → (G t (Function.update ω i x) ↔ G t ω)
  X_zero : ∀ t ω, ¬ nz t → X t ω = 0
  G_zero : ∀ t ω, ¬ nz t → G t ω
  G_first : ∀ t ω, nz t → (∀ q < t, ¬ nz q) → G t ω

namespace Chain

variable {n : ℕ} {M : Type*} [Fintype M] (K : Chain n M)

open Classical in
theorem prev (t : ℕ) : (∀ q < t, ¬ K.nz q) ∨ ∃ q < t, K.nz q ∧ ∀ r, q < r → r < t → ¬ K.nz r := by
  by_cases h : ∀ q < t, ¬ K.nz q
  · exact Or.inl h
  · right
    push Not at h
    obtain ⟨q, hq, hnz⟩ := h
    have hne : ((range t).filter K.nz).Nonempty := ⟨q, mem_filter.2 ⟨mem_range.2 hq, hnz⟩⟩
    refine ⟨_, mem_range.1 (mem_filter.1 (max'_mem _ hne)).1, (mem_filter.1 (max'_mem _ hne)).2, fun r h1 h2 h3 => ?_⟩
    exact absurd (le_max' _ r (mem_filter.2 ⟨mem_range.2 h2, h3⟩)) (by omega)

open Classical in
/-- The weight of the paths that have been good so far. -/
noncomputable def path (lam : ℝ) (t : ℕ) (ω : Fin n → M) : ℝ :=
  if ∀ r < t, K.G r ω then Real.exp (lam * ∑ r ∈ range t, K.X r ω) else 0

theorem path_nonneg (lam : ℝ) (t : ℕ) (ω : Fin n → M) : 0 ≤ K.path lam t ω := by
  unfold path
  split_ifs
  · exact (Real.exp_pos _).le
  · exact le_rfl

/-- Before step `t` the mask of the last active step has not been used yet. -/
theorem path_past (lam : ℝ) (t q : ℕ) (hq : q < t) (ht : t ≤ n) (hg : ∀ r, q < r → r < t → ¬ K.nz r) (ω : Fin n → M)
    (x : M) : K.path lam t (Function.update ω ⟨q, by omega⟩ x) = K.path lam t ω := by
  have h1 : ∀ r < t, (K.G r (Function.update ω ⟨q, by omega⟩ x) ↔ K.G r ω) := by
    intro r hr
    by_cases h : r ≤ q
    · exact K.G_past r ω _ x h
    · exact iff_of_true (K.G_zero r _ (hg r (by omega) hr)) (K.G_zero r _ (hg r (by omega) hr))
  have h2 : ∀ r ∈ range t, K.X r (Function.update ω ⟨q, by omega⟩ x) = K.X r ω := by
    intro r hr
    have hr := mem_range.1 hr
    by_cases h : r ≤ q
    · exact K.X_past r ω _ x h
    · rw [K.X_zero r _ (hg r (by omega) hr), K.X_zero r _ (hg r (by omega) hr)]
  unfold path
  rw [sum_congr rfl h2]
  congr 1
  exact propext ⟨fun h r hr => (h1 r hr).1 (h r hr), fun h r hr => (h1 r hr).2 (h r hr)⟩

theorem path_good {lam : ℝ} {t q : ℕ} (hq : q < t) {ω : Fin n → M} (h : K.path lam t ω ≠ 0) : K.G q ω := by
  unfold path at h
  by_contra hg
  exact h (if_neg fun h' => hg (h' q hq))

variable [Nonempty M]

open Classical in
/-- The exponential moment of the sum on good paths. -/
theorem avg_path (lam : ℝ) (C : ℕ → ℝ) (hC : ∀ t, 1 ≤ C t) (c : ℝ) (hc : 1 ≤ c)
    (hfirst : ∀ t < n, ∀ ω, K.nz t → (∀ q < t, ¬ K.nz q) → Real.exp (lam * K.X t ω) ≤ c)
    (hstep : ∀ t < n, ∀ q, (hq : q < n) → q < t → K.nz t → K.nz q → (∀ r, q < r → r < t → ¬ K.nz r) → ∀ ω, K.G q ω →
      avg (fun x => Real.exp (lam * K.X t (Function.update ω ⟨q, hq⟩ x))) ≤ C t)
    (t : ℕ) (ht : t ≤ n) : avg (K.path lam t) ≤ (if ∀ q < t, ¬ K.nz q then 1 else c) * ∏ r ∈ range t, C r := by
  induction t with
  | zero =>
    rw [if_pos (by omega)]
    refine avg_le fun ω => ?_
    unfold path
    split_ifs <;> simp
  | succ t ih =>
    have ih := ih (by omega)
    have hle : ∀ ω, K.path lam (t + 1) ω ≤ K.path lam t ω * Real.exp (lam * K.X t ω) := by
      intro ω
      unfold path
      by_cases h : ∀ r < t + 1, K.G r ω
      · rw [if_pos h, if_pos (fun r hr => h r (by omega)), sum_range_succ, mul_add, Real.exp_add]
      · rw [if_neg h]
        split_ifs
        · positivity
        · rw [zero_mul]
    have hP : 0 ≤ ∏ r ∈ range t, C r := prod_nonneg fun r _ => by linarith [hC r]
    refine (avg_mono hle).trans ?_
    rw [prod_range_succ]
    by_cases hz : K.nz t
    · rw [if_neg (fun h => h t (by omega) hz)]
      rcases K.prev t with hn | ⟨q, hq, hqz, hg⟩
      · rw [if_pos hn, one_mul] at ih
        have : ∀ ω, K.path lam t ω * Real.exp (lam * K.X t ω) ≤ c * K.path lam t ω := by
          intro ω
          rw [mul_comm]
          exact mul_le_mul_of_nonneg_right (hfirst t (by omega) ω hz hn) (K.path_nonneg _ _ _)
        refine (avg_mono this).trans ?_
        rw [avg_mul_left]
        refine mul_le_mul_of_nonneg_left (ih.trans ?_) (by linarith)
        exact le_mul_of_one_le_right hP (hC t)
      · rw [if_neg (fun h => h q hq hqz)] at ih
        refine (avg_mul_update ⟨q, by omega⟩ _ _ (fun ω x => K.path_past lam t q hq (by omega) hg ω x)
          (fun ω => K.path_nonneg _ _ _) (C t) fun ω h => ?_).trans ?_
        · exact hstep t (by omega) q (by omega) hq hz hqz hg ω (K.path_good hq h)
        · calc _ ≤ C t * (c * ∏ r ∈ range t, C r) := mul_le_mul_of_nonneg_left ih (by linarith [hC t])
            _ = _ := by ring
    · have e : ∀ ω, K.path lam t ω * Real.exp (lam * K.X t ω) = K.path lam t ω := by
        intro ω; rw [K.X_zero t ω hz, mul_zero, Real.exp_zero, mul_one]
      simp only [e]
      refine ih.trans ?_
      have hiff : (∀ q < t + 1, ¬ K.nz q) ↔ ∀ q < t, ¬ K.nz q := by
        constructor
        · exact fun h q hq => h q (by omega)
        · intro h q hq
          rcases Nat.lt_succ_iff_lt_or_eq.1 hq with h' | rfl
          · exact h q h'
          · exact hz
      simp only [hiff]
      refine mul_le_mul_of_nonneg_left (le_mul_of_one_le_right hP (hC t)) ?_
      split_ifs <;> linarith

open Classical in
/-- The probability that some step is not good. -/
theorem avg_bad (β : ℝ) (hβ : 0 ≤ β)
    (hstep : ∀ t < n, ∀ q, (hq : q < n) → q < t → K.nz t → K.nz q → (∀ r, q < r → r < t → ¬ K.nz r) → ∀ ω, K.G q ω →
      avg (fun x => if K.G t (Function.update ω ⟨q, hq⟩ x) then (0 : ℝ) else 1) ≤ β)
    (t : ℕ) (ht : t ≤ n) : avg (fun ω => if ∀ r < t, K.G r ω then (0 : ℝ) else 1) ≤ t * β := by
  induction t with
  | zero =>
    refine avg_le fun ω => ?_
    rw [if_pos (by omega)]
    simp
  | succ t ih =>
    have ih := ih (by omega)
    have hle : ∀ ω, (if ∀ r < t + 1, K.G r ω then (0 : ℝ) else 1) ≤ (if ∀ r < t, K.G r ω then (0 : ℝ) else 1)
        + K.path 0 t ω * (if K.G t ω then (0 : ℝ) else 1) := by
      intro ω
      unfold path
      by_cases h1 : ∀ r < t, K.G r ω
      · rw [if_pos h1, if_pos h1, zero_mul, Real.exp_zero, zero_add, one_mul]
        by_cases h2 : K.G t ω
        · rw [if_pos h2, if_pos]
          intro r hr
          rcases Nat.lt_succ_iff_lt_or_eq.1 hr with h' | rfl
          · exact h1 r h'
          · exact h2
        · rw [if_neg h2]
          split_ifs <;> norm_num
      · rw [if_neg h1, if_neg h1, zero_mul, add_zero]
        split_ifs <;> norm_num
    refine (avg_mono hle).trans ?_
    rw [avg_add]
    have hp1 : avg (K.path 0 t) ≤ 1 := by
      refine avg_le fun ω => ?_
      unfold path
      split_ifs <;> simp
    have key : avg (fun ω => K.path 0 t ω * (if K.G t ω then (0 : ℝ) else 1)) ≤ β := by
      by_cases hz : K.nz t
      · rcases K.prev t with hn | ⟨q, hq, hqz, hg⟩
        · refine (avg_le (c := 0) fun ω => ?_).trans hβ
          rw [if_pos (K.G_first t ω hz hn), mul_zero]
        · refine (avg_mul_update ⟨q, by omega⟩ _ _ (fun ω x => K.path_past 0 t q hq (by omega) hg ω x)
            (fun ω => K.path_nonneg _ _ _) β fun ω h => ?_).trans ?_
          · exact hstep t (by omega) q (by omega) hq hz hqz hg ω (K.path_good hq h)
          · exact mul_le_of_le_one_right hβ hp1
      · refine (avg_le (c := 0) fun ω => ?_).trans hβ
        rw [if_pos (K.G_zero t ω hz), mul_zero]
    push_cast
    linarith

open Classical in
/-- The sum is unlikely to be large. -/
theorem tail (lam : ℝ) (hl : 0 ≤ lam) (C : ℕ → ℝ) (hC : ∀ t, 1 ≤ C t) (c : ℝ) (hc : 1 ≤ c) (β : ℝ) (hβ : 0 ≤ β)
    (hfirst : ∀ t < n, ∀ ω, K.nz t → (∀ q < t, ¬ K.nz q) → Real.exp (lam * K.X t ω) ≤ c)
    (hstep : ∀ t < n, ∀ q, (hq : q < n) → q < t → K.nz t → K.nz q → (∀ r, q < r → r < t → ¬ K.nz r) → ∀ ω, K.G q ω →
      avg (fun x => Real.exp (lam * K.X t (Function.update ω ⟨q, hq⟩ x))) ≤ C t ∧
      avg (fun x => if K.G t (Function.update ω ⟨q, hq⟩ x) then (0 : ℝ) else 1) ≤ β) (T : ℝ) :
    avg (fun ω => if T ≤ ∑ r ∈ range n, K.X r ω then (1 : ℝ) else 0)
      ≤ Real.exp (-(lam * T)) * (c * ∏ r ∈ range n, C r) + n * β := by
  have h1 := K.avg_path lam C hC c hc hfirst (fun t ht q hq hqt h1 h2 h3 ω hG => (hstep t ht q hq hqt h1 h2 h3 ω hG).1) n le_rfl
  have h2 := K.avg_bad β hβ (fun t ht q hq hqt h1 h2 h3 ω hG => (hstep t ht q hq hqt h1 h2 h3 ω hG).2) n le_rfl
  have hP : 0 ≤ ∏ r ∈ range n, C r := prod_nonneg fun r _ => by linarith [hC r]
  have hle : ∀ ω, (if T ≤ ∑ r ∈ range n, K.X r ω then (1 : ℝ) else 0)
      ≤ Real.exp (-(lam * T)) * K.path lam n ω + (if ∀ r < n, K.G r ω then (0 : ℝ) else 1) := by
    intro ω
    have hp := K.path_nonneg lam n ω
    by_cases hG : ∀ r < n, K.G r ω
    · rw [if_pos hG, add_zero]
      unfold path
      rw [if_pos hG, ← Real.exp_add]
      split_ifs with hT
      · rw [Real.one_le_exp_iff]
        nlinarith
      · exact (Real.exp_pos _).le
    · rw [if_neg hG]
      have : 0 ≤ Real.exp (-(lam * T)) * K.path lam n ω := mul_nonneg (Real.exp_pos _).le hp
      split_ifs <;> linarith
  refine (avg_mono hle).trans ?_
  rw [avg_add, avg_mul_left]
  refine add_le_add (mul_le_mul_of_nonneg_left (h1.trans ?_) (Real.exp_pos _).le) h2
  refine mul_le_mul_of_nonneg_right ?_ hP
  split_ifs <;> linarith

end Chain

end GoTfhe
