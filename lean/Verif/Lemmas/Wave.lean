import Verif.Lemmas.Lost
import Verif.Lemmas.Walk
import Verif.Lemmas.Rade
import Mathlib.Analysis.Convex.SpecificFunctions.Basic

/-!
# The mean of the lost bits

A step of the blind rotation loses bits whose mean is `2^13` times the sum of the coefficients of a rotated key. That
sum, as a function of the rotation, is a wave: linear between `-w` and `w` for most keys of weight `w`.
-/

namespace GoTfhe

open Finset

/-- The sign of coefficient `z` of the rotated polynomial. -/
def chi (N : ℕ) (z : ℤ) : ℤ := if (z / N) % 2 = 0 then 1 else -1

theorem chi_sub_N (N : ℕ) (hN : 0 < N) (z : ℤ) : chi N (z - N) = -chi N z := by
  unfold chi
  rw [Int.sub_ediv_of_dvd _ (dvd_refl _), Int.ediv_self (by omega)]
  split_ifs <;> omega

theorem chi_sq (N : ℕ) (z : ℤ) : chi N z ^ 2 = 1 := by
  unfold chi
  split_ifs <;> norm_num

theorem waveCoef_eq (N : ℕ) (s : List Torus) (hs : IsBinary s) (e : ℤ) (k : ℕ) :
    waveCoef N s e k = chi N (-k - e) * (at' s (((-k - e : ℤ) % N).toNat)).toNat := by
  unfold waveCoef ext extG chi
  simp only
  rcases isBinary_at' hs (((-k - e : ℤ) % N).toNat) with h | h <;> rw [h] <;> split_ifs <;> decide

/-- The sum of the coefficients of the rotated key. -/
def wave (N : ℕ) (s : List Torus) (e : ℤ) : ℤ := ∑ k ∈ range N, waveCoef N s e k

theorem wave_add_N (N : ℕ) (hN : 0 < N) (s : List Torus) (hs : IsBinary s) (e : ℤ) : wave N s (e + N) = -wave N s e := by
  unfold wave
  rw [← sum_neg_distrib]
  refine sum_congr rfl fun k _ => ?_
  rw [waveCoef_eq N s hs, waveCoef_eq N s hs, show (-k - (e + N) : ℤ) = -k - e - N by ring, chi_sub_N N hN,
    Int.sub_emod_right]
  ring

theorem wave_per (N : ℕ) (hN : 0 < N) (s : List Torus) (hs : IsBinary s) (e : ℤ) :
    wave N s (e + (2 * N : ℕ)) = wave N s e := by
  rw [show e + ((2 * N : ℕ) : ℤ) = e + N + N by push_cast; ring, wave_add_N N hN s hs, wave_add_N N hN s hs, neg_neg]

theorem abs_wave_le (N : ℕ) (hN : 0 < N) (s : List Torus) (hs : IsBinary s) (e : ℤ) : |wave N s e| ≤ weight N s := by
  rw [← card_waveCoef N hN s hs e]
  push_cast
  exact (abs_sum_le_sum_abs _ _).trans (le_of_eq (sum_congr rfl fun k _ => by rw [Int.abs_eq_natAbs]))

/-- The sign with which bit `j` of the key enters. -/
def keySign (N : ℕ) (e : ℤ) (j : ℕ) : ℤ := chi N (-(((-j - e) % N : ℤ)) - e)

theorem sum_reindex (N : ℕ) (hN : 0 < N) (e : ℤ) (f : ℕ → ℤ) :
    ∑ k ∈ range N, chi N (-k - e) * f (((-k - e : ℤ) % N).toNat) = ∑ j ∈ range N, keySign N e j * f j := by
  have hN' : (N : ℤ) ≠ 0 := by omega
  have hlt : ∀ z : ℤ, (z % N).toNat < N := fun z => by
    have := Int.emod_nonneg z hN'
    have := Int.emod_lt_of_pos z (show (0 : ℤ) < N by omega)
    omega
  have hinv : ∀ k : ℕ, k < N → ((-((((-k - e : ℤ) % N).toNat : ℕ) : ℤ) - e) % N) = k := by
    intro k hk
    rw [Int.toNat_of_nonneg (Int.emod_nonneg _ hN')]
    have h1 := Int.emod_add_mul_ediv (-k - e) N
    have h2 : -((-k - e) % (N : ℤ)) - e = k + N * ((-k - e) / N) := by linarith
    rw [h2, Int.add_mul_emod_self_left]
    exact Int.emod_eq_of_lt (by omega) (by omega)
  refine sum_nbij' (fun k => ((-k - e : ℤ) % N).toNat) (fun j => ((-j - e : ℤ) % N).toNat) ?_ ?_ ?_ ?_ ?_
  · intro k _; exact mem_range.2 (hlt _)
  · intro k _; exact mem_range.2 (hlt _)
  · intro k hk; rw [hinv k (mem_range.1 hk)]; simp
  · intro k hk; rw [hinv k (mem_range.1 hk)]; simp
  · intro k hk
    unfold keySign
    rw [hinv k (mem_range.1 hk)]

theorem wave_eq (N : ℕ) (hN : 0 < N) (s : List Torus) (hs : IsBinary s) (e : ℤ) :
    wave N s e = ∑ j ∈ range N, keySign N e j * (at' s j).toNat := by
  rw [← sum_reindex N hN e fun j => ((at' s j).toNat : ℤ)]
  exact sum_congr rfl fun k _ => waveCoef_eq N s hs e k

theorem keySign_sq (N : ℕ) (e : ℤ) (j : ℕ) : keySign N e j ^ 2 = 1 := chi_sq _ _

/-- The sum of the signs, for the key of all ones. -/
def fullWave (N : ℕ) (e : ℤ) : ℤ := ∑ k ∈ range N, chi N (-k - e)

theorem fullWave_eq (N : ℕ) (hN : 0 < N) (e : ℤ) : fullWave N e = ∑ j ∈ range N, keySign N e j := by
  have := sum_reindex N hN e fun _ => 1
  simpa [fullWave] using this

theorem fullWave_add_N (N : ℕ) (hN : 0 < N) (e : ℤ) : fullWave N (e + N) = -fullWave N e := by
  unfold fullWave
  rw [← sum_neg_distrib]
  refine sum_congr rfl fun k _ => ?_
  rw [show (-k - (e + N) : ℤ) = -k - e - N by ring, chi_sub_N N hN]

theorem chi_neg (N : ℕ) (z : ℤ) (h1 : 1 ≤ z) (h2 : z ≤ N) : chi N (-z) = -1 := by
  unfold chi
  have : (-z) / (N : ℤ) = -1 := by
    rw [Int.ediv_eq_iff_of_pos (by omega)]
    constructor <;> linarith
  rw [this]
  rfl

theorem fullWave_lin (N : ℕ) (hN : 0 < N) (i : ℕ) (hi : i ≤ N) : fullWave N (1 + i) = 2 * i - N := by
  induction i with
  | zero =>
    unfold fullWave
    rw [sum_congr rfl (g := fun _ => (-1 : ℤ))]
    · simp
    · intro k hk
      have := mem_range.1 hk
      rw [show (-k - (1 + ((0 : ℕ) : ℤ)) : ℤ) = -(k + 1 : ℤ) by push_cast; ring]
      exact chi_neg N _ (by omega) (by omega)
  | succ i ih =>
    have h1 : fullWave N (1 + ((i + 1 : ℕ) : ℤ)) = fullWave N (1 + i) - chi N (-0 - (1 + i)) + chi N (-N - (1 + i)) := by
      unfold fullWave
      have h2 := sum_range_succ (fun k : ℕ => chi N (-k - (1 + i))) N
      have h3 := sum_range_succ' (fun k : ℕ => chi N (-k - (1 + i))) N
      have h4 : ∑ k ∈ range N, chi N (-(k : ℤ) - (1 + ((i + 1 : ℕ) : ℤ))) = ∑ k ∈ range N, chi N (-((k + 1 : ℕ) : ℤ) - (1 + i)) :=
        sum_congr rfl fun k _ => by congr 1; push_cast; ring
      rw [h4]
      push_cast at h2 h3 ⊢
      linarith
    rw [h1, ih (by omega), show (-N - (1 + i) : ℤ) = -(1 + i : ℤ) - N by ring, chi_sub_N N hN,
      show (-0 - (1 + i) : ℤ) = -(1 + i : ℤ) by ring, chi_neg N _ (by omega) (by omega)]
    push_cast
    ring

theorem sum_fullWave_sq (N : ℕ) (hN : 0 < N) :
    (∑ t ∈ range (2 * N), ((fullWave N t : ℤ) : ℝ) ^ 2) / (2 * N) = (N : ℝ) ^ 2 / 3 + 2 / 3 := by
  have hper : ∀ e : ℤ, ((fullWave N (e + N) : ℤ) : ℝ) ^ 2 = ((fullWave N e : ℤ) : ℝ) ^ 2 := by
    intro e
    rw [fullWave_add_N N hN]
    push_cast
    ring
  have h1 : ∑ t ∈ range (2 * N), ((fullWave N t : ℤ) : ℝ) ^ 2 = 2 * ∑ t ∈ range N, ((fullWave N t : ℤ) : ℝ) ^ 2 := by
    rw [two_mul, sum_range_add, two_mul]
    congr 1
    refine sum_congr rfl fun t _ => ?_
    rw [← hper t]
    congr 3
    push_cast
    ring
  have h2 := sum_per N (fun e => ((fullWave N e : ℤ) : ℝ) ^ 2) hper 1
  have h3 : ∑ t ∈ range N, ((fullWave N (1 + t) : ℤ) : ℝ) ^ 2 = ∑ t ∈ range N, (2 * (t : ℝ) - N) ^ 2 := by
    refine sum_congr rfl fun t ht => ?_
    rw [fullWave_lin N hN t (mem_range.1 ht).le]
    push_cast
    rfl
  have h4 : ∀ n : ℕ, ∑ t ∈ range n, (2 * (t : ℝ) - N) ^ 2
      = 4 * ((n : ℝ) * (n - 1) * (2 * n - 1) / 6) - 2 * N * (n * (n - 1)) + n * N ^ 2 := by
    intro n
    induction n with
    | zero => simp
    | succ n ih => rw [sum_range_succ, ih]; push_cast; ring
  rw [h1, ← h2, h3, h4]
  have : (N : ℝ) ≠ 0 := by positivity
  field_simp
  ring

/-- The mean of the square of the wave. -/
noncomputable def spread (N : ℕ) (s : List Torus) : ℝ := (∑ t ∈ range (2 * N), ((wave N s t : ℤ) : ℝ) ^ 2) / (2 * N)

theorem spread_nonneg (N : ℕ) (s : List Torus) : 0 ≤ spread N s :=
  div_nonneg (sum_nonneg fun _ _ => by positivity) (by positivity)

/-- The exponential moment of the wave at a uniform place. -/
theorem wave_mgf (N : ℕ) (hN : 0 < N) (s : List Torus) (hs : IsBinary s) (σ : ℝ) (hσ : σ = 1 ∨ σ = -1) (lam X : ℝ)
    (hl : 0 ≤ lam) (hX : lam * weight N s ≤ X) (hX1 : X ≤ 1) :
    (∑ t ∈ range (2 * N), Real.exp (lam * (σ * (wave N s t : ℤ)))) / (2 * N)
      ≤ 1 + (1 + 5 / 48 * X ^ 2) * lam ^ 2 / 2 * spread N s := by
  have hN' : (0 : ℝ) < 2 * N := by positivity
  set f : ℤ → ℝ := fun t => Real.exp (lam * (σ * (wave N s t : ℤ))) with hf
  have hper : ∀ e, f (e + (2 * N : ℕ)) = f e := fun e => by rw [hf]; simp only [wave_per N hN s hs]
  have h1 : ∀ t, f (N + t) = Real.exp (-(lam * (σ * (wave N s t : ℤ)))) := by
    intro t
    rw [hf]
    simp only
    rw [add_comm, wave_add_N N hN s hs]
    congr 1
    push_cast
    ring
  have h2 := sum_per (2 * N) f hper N
  have h3 : ∑ t ∈ range (2 * N), f t = ∑ t ∈ range (2 * N), Real.cosh (lam * (σ * (wave N s t : ℤ))) := by
    have : ∑ t ∈ range (2 * N), Real.cosh (lam * (σ * (wave N s t : ℤ))) = ∑ t ∈ range (2 * N), (f t + f (N + t)) / 2 := by
      refine sum_congr rfl fun t _ => ?_
      rw [Real.cosh_eq, h1]
    rw [this, ← sum_div, sum_add_distrib, h2]
    ring
  rw [h3]
  have h4 : ∀ t ∈ range (2 * N), Real.cosh (lam * (σ * (wave N s t : ℤ)))
      ≤ 1 + (1 + 5 / 48 * X ^ 2) * lam ^ 2 / 2 * ((wave N s t : ℤ) : ℝ) ^ 2 := by
    intro t _
    have h5 : |lam * (σ * (wave N s t : ℤ))| ≤ X := by
      have h6 : |σ| = 1 := by rcases hσ with h | h <;> rw [h] <;> norm_num
      rw [abs_mul, abs_mul, h6, one_mul, abs_of_nonneg hl]
      refine le_trans (mul_le_mul_of_nonneg_left ?_ hl) hX
      exact_mod_cast abs_wave_le N hN s hs t
    have h7 := cosh_le_quad _ X h5 hX1
    have h8 : σ ^ 2 = 1 := by rcases hσ with h | h <;> rw [h] <;> norm_num
    have h9 : (lam * (σ * (wave N s t : ℤ))) ^ 2 = lam ^ 2 * ((wave N s t : ℤ) : ℝ) ^ 2 := by
      rw [mul_pow, mul_pow, h8, one_mul]
    rw [h9] at h7
    linarith
  refine (div_le_div_of_nonneg_right (sum_le_sum h4) hN'.le).trans (le_of_eq ?_)
  rw [sum_add_distrib, ← mul_sum, sum_const, card_range, nsmul_eq_mul, mul_one, add_div, mul_div_assoc]
  push_cast
  rw [div_self hN'.ne']
  rfl

/-- The spread of a random key, in the exponent. -/
theorem spread_mgf (N : ℕ) (hN : 0 < N) (key : (Fin N → Bool) → List Torus) (hb : ∀ b, IsBinary (key b))
    (hk : ∀ b (j : Fin N), (at' (key b) j).toNat = (b j).toNat) (c η : ℝ) (hc : 0 ≤ c) (hη : 0 < η)
    (hs : 2 * (1 + 1 / η) * N * (c / 4) < 1) :
    avg (fun b : Fin N → Bool => Real.exp (c * spread N (key b)))
      ≤ Real.exp (c * (N ^ 2 / 12 + 1 / 6) + ((1 + η) / 2 * (N * (c ^ 2 * (N ^ 2 / 12 + 1 / 6)))
        + N * (c / 4) / (1 - 2 * (1 + 1 / η) * N * (c / 4)))) := by
  have hN' : (0 : ℝ) < 2 * N := by positivity
  set Q : ℝ := (N : ℝ) ^ 2 / 12 + 1 / 6 with hQ
  have hlin : (∑ t ∈ range (2 * N), (((fullWave N t : ℤ) : ℝ) / 2) ^ 2) / (2 * N) = Q := by
    have := sum_fullWave_sq N hN
    rw [show (fun t : ℕ => (((fullWave N t : ℤ) : ℝ) / 2) ^ 2) = fun t : ℕ => ((fullWave N t : ℤ) : ℝ) ^ 2 / 4 from
      funext fun t => by ring, ← sum_div, div_right_comm, this, hQ]
    ring
  set β : Fin N → ℝ := fun j => (∑ t ∈ range (2 * N), ((fullWave N t : ℤ) : ℝ) / 2 * (keySign N t j : ℤ)) / (2 * N) with hβ
  have hβ2 : ∀ j, β j ^ 2 ≤ Q := by
    intro j
    have h1 := sum_mul_sq_le_sq_mul_sq (range (2 * N)) (fun t : ℕ => ((fullWave N t : ℤ) : ℝ) / 2)
      (fun t : ℕ => ((keySign N t j : ℤ) : ℝ))
    have h2 : ∑ t ∈ range (2 * N), ((keySign N t j : ℤ) : ℝ) ^ 2 = 2 * N := by
      rw [sum_congr rfl (g := fun _ => (1 : ℝ))]
      · simp
      · intro t _; exact_mod_cast keySign_sq N t j
    rw [h2] at h1
    rw [hβ, ← hlin, div_pow, div_le_div_iff₀ (by positivity) hN']
    nlinarith
  have hwave : ∀ b (t : ℕ), ((wave N (key b) t : ℤ) : ℝ)
      = ((fullWave N t : ℤ) : ℝ) / 2 + (∑ j : Fin N, ((keySign N t j : ℤ) : ℝ) * sgn (b j)) / 2 := by
    intro b t
    rw [wave_eq N hN _ (hb b), fullWave_eq N hN]
    push_cast
    rw [← Fin.sum_univ_eq_sum_range (fun j => ((keySign N t j : ℤ) : ℝ) * ((at' (key b) j).toNat : ℝ)),
      ← Fin.sum_univ_eq_sum_range (fun j => ((keySign N t j : ℤ) : ℝ)), ← add_div, ← sum_add_distrib, sum_div]
    refine sum_congr rfl fun j _ => ?_
    rw [hk b j]
    cases b j <;> simp [sgn]
  have hspread : ∀ b, c * spread N (key b) = c * Q + ∑ t ∈ range (2 * N), (1 / (2 * N) : ℝ)
      • (∑ j : Fin N, c * β j * sgn (b j) + c / 4 * (∑ j : Fin N, ((keySign N t j : ℤ) : ℝ) * sgn (b j)) ^ 2) := by
    intro b
    unfold spread
    simp only [hwave b, smul_eq_mul]
    rw [← mul_sum, sum_add_distrib, sum_const, card_range, nsmul_eq_mul, ← hlin]
    have h1 : ∑ j : Fin N, c * β j * sgn (b j) = c * ((∑ t ∈ range (2 * N), ((fullWave N t : ℤ) : ℝ) / 2
        * ∑ j : Fin N, ((keySign N t j : ℤ) : ℝ) * sgn (b j)) / (2 * N)) := by
      simp only [hβ, mul_sum]
      rw [sum_comm, sum_div, mul_sum]
      refine sum_congr rfl fun j _ => ?_
      rw [sum_div, sum_div, mul_sum, sum_mul, mul_sum]
      refine sum_congr rfl fun t _ => ?_
      ring
    rw [h1]
    have h2 : ∑ t ∈ range (2 * N), (((fullWave N t : ℤ) : ℝ) / 2 + (∑ j : Fin N, ((keySign N t j : ℤ) : ℝ) * sgn (b j)) / 2) ^ 2
        = ∑ t ∈ range (2 * N), (((fullWave N t : ℤ) : ℝ) / 2) ^ 2
          + ∑ t ∈ range (2 * N), ((fullWave N t : ℤ) : ℝ) / 2 * ∑ j : Fin N, ((keySign N t j : ℤ) : ℝ) * sgn (b j)
          + (∑ t ∈ range (2 * N), (∑ j : Fin N, ((keySign N t j : ℤ) : ℝ) * sgn (b j)) ^ 2) / 4 := by
      rw [sum_div, ← sum_add_distrib, ← sum_add_distrib]
      exact sum_congr rfl fun t _ => by ring
    rw [h2, ← mul_sum]
    push_cast
    field_simp
    ring
  have hjen : ∀ b, Real.exp (c * spread N (key b)) ≤ Real.exp (c * Q) * ∑ t ∈ range (2 * N), (1 / (2 * N) : ℝ)
      * Real.exp (∑ j : Fin N, c * β j * sgn (b j) + c / 4 * (∑ j : Fin N, ((keySign N t j : ℤ) : ℝ) * sgn (b j)) ^ 2) := by
    intro b
    rw [hspread b, Real.exp_add]
    refine mul_le_mul_of_nonneg_left ?_ (Real.exp_pos _).le
    have := convexOn_exp.map_sum_le (t := range (2 * N)) (w := fun _ => (1 / (2 * N) : ℝ))
      (p := fun t : ℕ => ∑ j : Fin N, c * β j * sgn (b j) + c / 4 * (∑ j : Fin N, ((keySign N t j : ℤ) : ℝ) * sgn (b j)) ^ 2)
      (fun _ _ => by positivity) (by
        rw [sum_const, card_range, nsmul_eq_mul]
        push_cast
        field_simp) (fun _ _ => Set.mem_univ _)
    simpa only [smul_eq_mul] using this
  refine (avg_mono hjen).trans ?_
  rw [avg_mul_left, avg_sum, Real.exp_add]
  refine mul_le_mul_of_nonneg_left ?_ (Real.exp_pos _).le
  have hone : ∀ t ∈ range (2 * N), avg (fun b : Fin N → Bool => (1 / (2 * N) : ℝ)
      * Real.exp (∑ j : Fin N, c * β j * sgn (b j) + c / 4 * (∑ j : Fin N, ((keySign N t j : ℤ) : ℝ) * sgn (b j)) ^ 2))
      ≤ (1 / (2 * N) : ℝ) * Real.exp ((1 + η) / 2 * (N * (c ^ 2 * Q)) + N * (c / 4) / (1 - 2 * (1 + 1 / η) * N * (c / 4))) := by
    intro t _
    rw [avg_mul_left]
    refine mul_le_mul_of_nonneg_left ?_ (by positivity)
    refine (rade_mgf N (fun j => c * β j) (fun j => ((keySign N t j : ℤ) : ℝ))
      (fun j => by exact_mod_cast (keySign_sq N t j).le) (c / 4) η (by positivity) hη hs).trans ?_
    apply Real.exp_le_exp.2
    have h1 : ∑ j : Fin N, (c * β j) ^ 2 ≤ N * (c ^ 2 * Q) := by
      refine (sum_le_card_nsmul univ _ (c ^ 2 * Q) fun j _ => ?_).trans (le_of_eq ?_)
      · rw [mul_pow]; exact mul_le_mul_of_nonneg_left (hβ2 j) (by positivity)
      · rw [card_univ, Fintype.card_fin, nsmul_eq_mul]
    have h2 := mul_le_mul_of_nonneg_left h1 (show (0 : ℝ) ≤ (1 + η) / 2 by positivity)
    linarith
  refine (sum_le_sum hone).trans (le_of_eq ?_)
  rw [sum_const, card_range, nsmul_eq_mul]
  push_cast
  field_simp

end GoTfhe
