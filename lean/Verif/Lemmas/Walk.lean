import Verif.Lemmas.LowBits
import Mathlib.Analysis.SpecialFunctions.Exp

/-!
# Sums along a walk with uniform steps

A step of length `a m` is taken if `s m = 1`. If it is not zero, it costs the value of a periodic function at the
place where the walk is.
-/

namespace GoTfhe

open Finset

/-- The cost of the last `m` steps, which start at `e`. -/
noncomputable def walkSum (s : ℕ → ℕ) (h : ℤ → ℝ) (a : ℕ → ℤ) : ℕ → ℤ → ℝ
  | 0, _ => 0
  | m + 1, e => s m * (if a m = 0 then 0 else h e) + walkSum s h a m (e + s m * a m)

theorem walkSum_eq (s : ℕ → ℕ) (h : ℤ → ℝ) (a : ℕ → ℤ) (m : ℕ) (e : ℤ) :
    walkSum s h a m e = ∑ i ∈ range m, s i * (if a i = 0 then 0 else h (e + ∑ j ∈ Ico (i + 1) m, s j * a j)) := by
  induction m generalizing e with
  | zero => simp [walkSum]
  | succ m ih =>
    rw [walkSum, ih, sum_range_succ, add_comm]
    congr 1
    · refine sum_congr rfl fun i hi => ?_
      have hi := mem_range.1 hi
      rw [sum_Ico_succ_top (by omega)]
      congr 3
      ring
    · simp

theorem walkSum_congr (s : ℕ → ℕ) (h : ℤ → ℝ) (a b : ℕ → ℤ) (m : ℕ) (e : ℤ) (hab : ∀ i < m, a i = b i) :
    walkSum s h a m e = walkSum s h b m e := by
  induction m generalizing e with
  | zero => rfl
  | succ m ih =>
    rw [walkSum, walkSum, hab m (by omega), ih _ fun i hi => hab i (by omega)]

theorem walkSum_per (s : ℕ → ℕ) (h : ℤ → ℝ) (M : ℤ) (hper : ∀ e, h (e + M) = h e) (a : ℕ → ℤ) (m : ℕ) (e : ℤ) :
    walkSum s h a m (e + M) = walkSum s h a m e := by
  induction m generalizing e with
  | zero => rfl
  | succ m ih =>
    rw [walkSum, walkSum, hper, add_right_comm, ih]

theorem per_mul {f : ℤ → ℝ} {M : ℤ} (hper : ∀ e, f (e + M) = f e) (e q : ℤ) : f (e + M * q) = f e := by
  induction q using Int.induction_on with
  | zero => simp
  | succ i ih => rw [mul_add, mul_one, ← add_assoc, hper, ih]
  | pred i ih => rw [← ih, ← hper (e + M * (-i - 1))]; congr 1; ring

/-- A sum over a period does not depend on where it starts. -/
theorem sum_per (M : ℕ) (f : ℤ → ℝ) (hper : ∀ e, f (e + M) = f e) (e : ℤ) :
    ∑ t ∈ range M, f (e + t) = ∑ t ∈ range M, f t := by
  rcases Nat.eq_zero_or_pos M with rfl | hM
  · simp
  have hM' : (0 : ℤ) < M := by omega
  have h0 := Int.emod_nonneg e (show (M : ℤ) ≠ 0 by omega)
  obtain ⟨j, hj⟩ : ∃ j : ℕ, (j : ℤ) = e % M := ⟨(e % M).toNat, Int.toNat_of_nonneg h0⟩
  rw [← sum_cyc M j fun t => f t]
  refine sum_congr rfl fun t _ => ?_
  have h1 := Int.emod_add_mul_ediv e M
  have h2 := Int.emod_add_mul_ediv ((j : ℤ) + t) M
  have : e + t = (((j + t) % M : ℕ) : ℤ) + M * (((j : ℤ) + t) / M + e / M) := by
    push_cast
    rw [mul_add]
    linarith
  rw [this, per_mul hper]

section

variable {X : Type*} [Fintype X] [Nonempty X] {n : ℕ}

/-- The steps that the draws `a` give. -/
def walkSteps (tl : ℕ → X → ℤ) (a : Fin n → X) (i : ℕ) : ℤ := if h : i < n then tl i (a ⟨i, h⟩) else 0

/-- The exponential moment of the cost, over uniform steps. -/
theorem walk_mgf (N : ℕ) (hN : 0 < N) (tl : ℕ → X → ℤ)
    (hU : ∀ i < n, ∀ f : ℤ → ℝ, avg (fun x => f (tl i x)) = (∑ t ∈ range (2 * N), f t) / (2 * N))
    (s : ℕ → ℕ) (hs : ∀ i, s i ≤ 1) (h : ℤ → ℝ) (hper : ∀ e, h (e + (2 * N : ℕ)) = h e) (H : ℝ) (hH0 : 0 ≤ H)
    (hH : ∀ e, h e ≤ H) (lam : ℝ) (hl : 0 ≤ lam) (C : ℝ) (hC1 : 1 ≤ C)
    (hC : (∑ t ∈ range (2 * N), Real.exp (lam * h t)) / (2 * N) ≤ C) (m : ℕ) (hm : m ≤ n) :
    (∀ e, avg (fun a : Fin n → X => Real.exp (lam * walkSum s h (walkSteps tl a) m e))
      ≤ Real.exp (lam * H) * (C + 1 / (2 * N)) ^ ∑ i ∈ range m, s i) ∧
    (∑ t ∈ range (2 * N), avg (fun a : Fin n → X => Real.exp (lam * walkSum s h (walkSteps tl a) m t))) / (2 * N)
      ≤ (C + 1 / (2 * N)) ^ ∑ i ∈ range m, s i := by
  have hN' : (0 : ℝ) < 2 * N := by positivity
  set A : ℕ → ℤ → ℝ := fun m e => avg (fun a : Fin n → X => Real.exp (lam * walkSum s h (walkSteps tl a) m e)) with hA
  have hA0 : ∀ m e, 0 ≤ A m e := fun m e => avg_nonneg fun a => (Real.exp_pos _).le
  have hAper : ∀ m e, A m (e + (2 * N : ℕ)) = A m e := by
    intro m e
    show avg _ = avg _
    simp only [walkSum_per s h _ hper]
  have hstep0 : ∀ m, s m = 0 → ∀ e, A (m + 1) e = A m e := by
    intro m h0 e
    show avg _ = avg _
    congr 1
    funext a
    rw [walkSum, h0]
    simp
  have hstep1 : ∀ m, m < n → s m = 1 → ∀ e,
      A (m + 1) e ≤ Real.exp (lam * h e) * ((∑ t ∈ range (2 * N), A m t) / (2 * N)) + A m e / (2 * N) := by
    intro m hm h1 e
    have e1 : A (m + 1) e = avg fun a : Fin n → X => avg fun x : X =>
        (fun t : ℤ => Real.exp (lam * ((if t = 0 then 0 else h e) + walkSum s h (walkSteps tl a) m (e + t)))) (tl m x) := by
      show avg _ = _
      rw [avg_update (⟨m, hm⟩ : Fin n)]
      congr 1
      funext a
      congr 1
      funext x
      have hw : walkSteps tl (Function.update a ⟨m, hm⟩ x) m = tl m x := by
        unfold walkSteps
        rw [dif_pos hm, Function.update_self]
      rw [walkSum, hw, h1, walkSum_congr s h (walkSteps tl (Function.update a ⟨m, hm⟩ x)) (walkSteps tl a) m]
      · simp
      · intro i hi
        unfold walkSteps
        rw [dif_pos (by omega), dif_pos (by omega), Function.update_of_ne]
        intro h'
        have := congrArg Fin.val h'
        simp at this
        omega
    have e2 : ∀ a : Fin n → X, (avg fun x : X => (fun t : ℤ => Real.exp (lam * ((if t = 0 then 0 else h e)
          + walkSum s h (walkSteps tl a) m (e + t)))) (tl m x))
        = (1 / (2 * N)) * ∑ t ∈ range (2 * N), Real.exp (lam * ((if (t : ℤ) = 0 then 0 else h e)
          + walkSum s h (walkSteps tl a) m (e + t))) := by
      intro a
      rw [hU m hm (fun t : ℤ => Real.exp (lam * ((if t = 0 then 0 else h e) + walkSum s h (walkSteps tl a) m (e + t)))),
        div_eq_inv_mul, one_div]
    rw [e1, congrArg avg (funext e2), avg_mul_left, avg_sum]
    have e3 : ∀ t ∈ range (2 * N), avg (fun a : Fin n → X => Real.exp (lam * ((if (t : ℤ) = 0 then 0 else h e)
        + walkSum s h (walkSteps tl a) m (e + t))))
        ≤ Real.exp (lam * h e) * A m (e + t) + if t = 0 then A m e else 0 := by
      intro t _
      by_cases ht : t = 0
      · subst ht
        simp only [Nat.cast_zero, if_true, zero_add, add_zero]
        have : 0 ≤ Real.exp (lam * h e) * A m e := mul_nonneg (Real.exp_pos _).le (hA0 m e)
        show A m e ≤ _
        linarith
      · have ht' : ¬ (t : ℤ) = 0 := by omega
        simp only [if_neg ht, if_neg ht', add_zero]
        rw [hA, ← avg_mul_left]
        refine le_of_eq ?_
        congr 1
        funext a
        rw [mul_add, Real.exp_add]
    refine (mul_le_mul_of_nonneg_left (sum_le_sum e3) (by positivity)).trans (le_of_eq ?_)
    rw [sum_add_distrib, ← mul_sum, sum_per (2 * N) (A m) (hAper m) e, sum_ite_eq' (range (2 * N)) 0, if_pos (mem_range.2 (by omega))]
    ring
  set K : ℝ := C + 1 / (2 * N) with hK
  have hK1 : 1 ≤ K := by rw [hK]; have : (0 : ℝ) ≤ 1 / (2 * N) := by positivity
                         linarith
  show (∀ e, A m e ≤ _) ∧ (∑ t ∈ range (2 * N), A m t) / (2 * N) ≤ _
  induction m with
  | zero =>
    have : ∀ e, A 0 e = 1 := by
      intro e
      show avg _ = 1
      simp only [walkSum, mul_zero, Real.exp_zero]
      exact avg_const 1
    constructor
    · intro e
      rw [this]
      simp only [range_zero, sum_empty, pow_zero, mul_one]
      exact Real.one_le_exp (by positivity)
    · simp only [this, range_zero, sum_empty, pow_zero]
      rw [sum_const, card_range, nsmul_eq_mul, mul_one]
      push_cast
      rw [div_self hN'.ne']
  | succ m ih =>
    obtain ⟨ih1, ih2⟩ := ih (by omega)
    rw [sum_range_succ]
    rcases Nat.le_one_iff_eq_zero_or_eq_one.1 (hs m) with h0 | h1
    · rw [h0, add_zero]
      simp only [hstep0 m h0]
      exact ⟨ih1, ih2⟩
    · rw [h1, pow_succ]
      set w := ∑ i ∈ range m, s i
      have hKw : 0 ≤ K ^ w := by positivity
      constructor
      · intro e
        refine (hstep1 m (by omega) h1 e).trans ?_
        have h2 : Real.exp (lam * h e) ≤ Real.exp (lam * H) := Real.exp_le_exp.2 (mul_le_mul_of_nonneg_left (hH e) hl)
        have h3 : Real.exp (lam * h e) * ((∑ t ∈ range (2 * N), A m t) / (2 * N)) ≤ Real.exp (lam * H) * K ^ w :=
          mul_le_mul h2 ih2 (div_nonneg (sum_nonneg fun t _ => hA0 m t) hN'.le) (Real.exp_pos _).le
        have h4 : A m e / (2 * N) ≤ Real.exp (lam * H) * K ^ w * (1 / (2 * N)) := by
          rw [mul_one_div]
          exact div_le_div_of_nonneg_right (ih1 e) hN'.le
        have h5 : 0 ≤ Real.exp (lam * H) * K ^ w := by positivity
        rw [hK]
        rw [← mul_assoc, mul_add]
        have h6 : Real.exp (lam * H) * (C + 1 / (2 * N)) ^ w * C ≥ Real.exp (lam * H) * (C + 1 / (2 * N)) ^ w := by
          have := mul_le_mul_of_nonneg_left hC1 h5
          rw [mul_one] at this
          exact this
        linarith
      · have h2 : ∀ t ∈ range (2 * N), A (m + 1) t
            ≤ Real.exp (lam * h t) * ((∑ t ∈ range (2 * N), A m t) / (2 * N)) + A m t / (2 * N) := fun t _ =>
          hstep1 m (by omega) h1 t
        have h3 := div_le_div_of_nonneg_right (sum_le_sum h2) hN'.le
        refine h3.trans ?_
        rw [sum_add_distrib, ← sum_mul, ← sum_div]
        set S := (∑ t ∈ range (2 * N), A m t) / (2 * N) with hS
        have hS0 : 0 ≤ S := div_nonneg (sum_nonneg fun t _ => hA0 m t) hN'.le
        calc _ = S * ((∑ t ∈ range (2 * N), Real.exp (lam * h t)) / (2 * N) + 1 / (2 * N)) := by ring
          _ ≤ S * K := mul_le_mul_of_nonneg_left (by rw [hK]; linarith) hS0
          _ ≤ K ^ w * K := mul_le_mul_of_nonneg_right ih2 (by linarith)

end

end GoTfhe
