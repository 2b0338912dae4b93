import Verif.Props.FftFloat
import Verif.Lemmas.FftConvert

/-!
# C93: the transforms never overflow

`fl'` is any function that agrees with the rounding `fl` on the numbers up to `2^700` in absolute value; beyond that it may
return anything (`±Inf`, `NaN` or a trap have no counterpart in the rationals, an arbitrary value stands for them). The
tables, the products and the sums of products are the same for `fl` and `fl'`: no intermediate result of the code
comes near the largest `float64`, which is just below `2^1024`.

The language leaves open what `int64(x)` returns for a float64 `x` outside the range of `int64`. `conv` is any conversion that
truncates the numbers below `2^63` in absolute value. The results are the same for every `conv`.
-/

namespace GoTfhe

section

variable {fl fl' : ℚ → ℚ} (hfl : IsRound fl) (hag : ∀ x, |x| ≤ 2 ^ 700 → fl' x = fl x) {fu : Fusing} {ce : ℚ → ℚ × ℚ}
  (hce : CexpAccurate ce (1 / 2 ^ 52))

include hag in
theorem agree_noOverflow : ∀ x, |x| ≤ 2 ^ 700 → fl' x = noOverflow fl x :=
  fun x hx => (hag x hx).trans (noOverflow_agree fl x hx)

include hfl hag hce

/-- **C93**, the evaluator: for every degree up to `2^31` the tables of twiddle factors do not depend on what happens
beyond `2^700`. -/
theorem C93_tables (N : ℤ) (hN : N ≤ 2 ^ 31) :
    newPolyEval (floatArith fl' fu mathPi ce) N = newPolyEval (floatArith fl fu mathPi ce) N := by
  have key : ∀ k : ℕ, k ≤ 30 → pev (floatArith fl' fu mathPi ce) k = pev (floatArith fl fu mathPi ce) k := by
    intro k hk
    have h1 := fun s hs i hi => tw_range (fl := fl') hfl.noOverflow (agree_noOverflow hag) fu ce hce k hk s hs i hi
    have h2 := fun s hs i hi => tw_range (fl := fl) hfl.noOverflow (noOverflow_agree fl) fu ce hce k hk s hs i hi
    have hF : tab (2 ^ k - 1) (twFAll (floatArith fl' fu mathPi ce) k) = tab (2 ^ k - 1) (twFAll (floatArith fl fu mathPi ce) k) := by
      apply tab_congr
      intro x hx
      have a : 2 ^ Nat.log2 (x + 1) ≤ x + 1 := Nat.log2_self_le (by omega)
      have b : x + 1 < 2 ^ (Nat.log2 (x + 1) + 1) := Nat.lt_log2_self
      have hs : Nat.log2 (x + 1) < k := (Nat.pow_lt_pow_iff_right (le_refl 2)).1 (by omega)
      rw [pow_succ] at b
      unfold twFAll
      rw [(h1 _ hs _ (by omega)).1.1, (h2 _ hs _ (by omega)).1.1]
    have hI : tab (2 ^ k - 1) (twIAll (floatArith fl' fu mathPi ce) k) = tab (2 ^ k - 1) (twIAll (floatArith fl fu mathPi ce) k) := by
      apply tab_congr
      intro y hy
      set w := 2 ^ k - 1 - y with hw
      have hw0 : w ≠ 0 := by omega
      have a : 2 ^ Nat.log2 w ≤ w := Nat.log2_self_le hw0
      have b : w < 2 ^ (Nat.log2 w + 1) := Nat.lt_log2_self
      have hs : Nat.log2 w < k := (Nat.pow_lt_pow_iff_right (le_refl 2)).1 (by omega)
      have hi : y + 2 ^ (Nat.log2 w + 1) - 2 ^ k < 2 ^ Nat.log2 w := by
        rw [pow_succ] at b ⊢; omega
      unfold twIAll
      rw [← hw, (h1 _ hs _ hi).2.1, (h2 _ hs _ hi).2.1]
    unfold pev
    rw [hF, hI]
    rfl
  have bound : ∀ k : ℕ, N = ((2 ^ (k + 1) : ℕ) : ℤ) → k ≤ 30 := by
    intro k hk
    by_contra h
    have h2 : 2 ^ 32 ≤ 2 ^ (k + 1) := Nat.pow_le_pow_right (by omega) (by omega)
    have h3 : 2 ^ (k + 1) ≤ 2 ^ 31 := by rw [hk] at hN; exact_mod_cast hN
    omega
  apply Option.ext
  intro e
  rw [newPolyEval_some, newPolyEval_some]
  constructor
  · rintro ⟨k, h3, hk, rfl⟩; exact ⟨k, h3, hk, key k (bound k hk)⟩
  · rintro ⟨k, h3, hk, rfl⟩; exact ⟨k, h3, hk, (key k (bound k hk)).symm⟩

/-- **C93**, `MulPoly`: any two polynomials, any coefficients. -/
theorem C93_mulPoly (N : ℤ) (hN : N ≤ 2 ^ 31) (e : PolyEval ℚ)
    (he : newPolyEval (floatArith fl fu mathPi ce) N = some e) (p0 p1 : List Torus)
    (h0 : (p0.length : ℤ) = N) (h1 : (p1.length : ℤ) = N) :
    polyMul (floatArith fl' fu mathPi ce) e p0 p1 = polyMul (floatArith fl fu mathPi ce) e p0 p1 := by
  have he' := he
  rw [← C93_tables hfl hag hce N hN] at he'
  obtain ⟨k, hk, rfl, rfl⟩ := (newPolyEval_some _ N e).1 he
  obtain ⟨k', hk', hN', hp⟩ := (newPolyEval_some _ _ _).1 he'
  have hkk : k' = k := by
    have h2 : 2 ^ (k + 1) = 2 ^ (k' + 1) := by exact_mod_cast hN'
    have := Nat.pow_right_injective (le_refl 2) h2
    omega
  subst hkk
  have hk30 : k' ≤ 30 := by
    by_contra h
    have h2 : 2 ^ 32 ≤ 2 ^ (k' + 1) := Nat.pow_le_pow_right (by omega) (by omega)
    have h3 : 2 ^ (k' + 1) ≤ 2 ^ 31 := by exact_mod_cast hN
    omega
  have h0' : p0.length = 2 ^ (k' + 1) := by exact_mod_cast h0
  have h1' : p1.length = 2 ^ (k' + 1) := by exact_mod_cast h1
  have hnP : ∀ a : ℚ → ℚ, newPoly ((pev (floatArith a fu mathPi ce) k').degree : ℤ) = some (mkSlice (2 ^ (k' + 1)) 0) :=
    fun a => newPoly_pow k' hk
  have key : ∀ a : ℚ → ℚ, polyMul (floatArith a fu mathPi ce) (pev (floatArith a fu mathPi ce) k') p0 p1
      = some (tab (2 ^ (k' + 1)) fun i => at' (fftR (floatArith a fu mathPi ce) k' (fftMul (floatArith a fu mathPi ce) k'
        (fftT (floatArith a fu mathPi ce) k' p0) (fftT (floatArith a fu mathPi ce) k' p1))) i) := by
    intro a
    unfold polyMul
    simp only [hnP a, Option.bind_eq_bind, Option.bind_some]
    rw [mulPolyAssign_eq _ _ k' hk p0 p1 _ h0' h1' (by simp)]
  conv_lhs => rw [hp]
  rw [key, key, mulR_range (fl := fl') hfl.noOverflow (agree_noOverflow hag) hce k' hk hk30,
    mulR_range (fl := fl) hfl.noOverflow (noOverflow_agree fl) hce k' hk hk30]

/-- **C93**, the external product: sums of up to `2^20` products, accumulated in Fourier form and transformed back. -/
theorem C93_accum (k : ℕ) (hk : 3 ≤ k) (hk' : k ≤ 30) (l : List (List Torus × List Torus)) (hl : l.length ≤ 2 ^ 20) :
    (fftLaws (floatArith fl' fu mathPi ce) k hk).R ((fftLaws (floatArith fl' fu mathPi ce) k hk).accum l)
      = (fftLaws (floatArith fl fu mathPi ce) k hk).R ((fftLaws (floatArith fl fu mathPi ce) k hk).accum l) :=
  (accumR_range (fl := fl') hfl.noOverflow (agree_noOverflow hag) hce k hk hk' l hl).trans
    (accumR_range (fl := fl) hfl.noOverflow (noOverflow_agree fl) hce k hk hk' l hl).symm

/-- **C93**, `int64` in `MulPoly`: the result does not depend on what the conversion does outside the range of `int64`. -/
theorem C93_int64_mulPoly (conv : ℚ → ℤ) (hconv : ∀ x : ℚ, |x| < 2 ^ 63 → conv x = truncZ x) (N : ℤ) (hN : N ≤ 2 ^ 31)
    (e : PolyEval ℚ) (he : newPolyEval (floatArith fl fu mathPi ce) N = some e) (p0 p1 : List Torus)
    (h0 : (p0.length : ℤ) = N) (h1 : (p1.length : ℤ) = N) :
    polyMul { floatArith fl' fu mathPi ce with toInt := conv } e p0 p1 = polyMul (floatArith fl fu mathPi ce) e p0 p1 := by
  rw [← C93_mulPoly hfl hag hce N hN e he p0 p1 h0 h1]
  have he' := he
  rw [← C93_tables hfl hag hce N hN] at he'
  obtain ⟨k, hk, rfl, rfl⟩ := (newPolyEval_some _ N e).1 he'
  have hk30 : k ≤ 30 := by
    by_contra h
    have h2 : 2 ^ 32 ≤ 2 ^ (k + 1) := Nat.pow_le_pow_right (by omega) (by omega)
    have h3 : 2 ^ (k + 1) ≤ 2 ^ 31 := by exact_mod_cast hN
    omega
  have h0' : p0.length = 2 ^ (k + 1) := by exact_mod_cast h0
  have h1' : p1.length = 2 ^ (k + 1) := by exact_mod_cast h1
  have key : ∀ A : Arith ℚ, polyMul A (pev A k) p0 p1
      = some (tab (2 ^ (k + 1)) fun i => at' (fftR A k (fftMul A k (fftT A k p0) (fftT A k p1))) i) := by
    intro A
    have hnP : newPoly ((pev A k).degree : ℤ) = some (mkSlice (2 ^ (k + 1)) 0) := newPoly_pow k hk
    unfold polyMul
    simp only [hnP, Option.bind_eq_bind, Option.bind_some]
    rw [mulPolyAssign_eq _ _ k hk p0 p1 _ h0' h1' (by simp)]
  have key' := key { floatArith fl' fu mathPi ce with toInt := conv }
  rw [show pev { floatArith fl' fu mathPi ce with toInt := conv } k = pev (floatArith fl' fu mathPi ce) k from rfl] at key'
  rw [key', key]
  congr 2
  funext i
  congr 1
  exact mulR_conv hfl.noOverflow (agree_noOverflow hag) hce conv hconv k hk hk30 p0 p1

/-- **C93**, `int64` in the external product: sums of up to `2^18` products. -/
theorem C93_int64_accum (conv : ℚ → ℤ) (hconv : ∀ x : ℚ, |x| < 2 ^ 63 → conv x = truncZ x) (k : ℕ) (hk : 3 ≤ k)
    (hk' : k ≤ 30) (l : List (List Torus × List Torus)) (hl : l.length ≤ 2 ^ 18) :
    (fftLaws { floatArith fl' fu mathPi ce with toInt := conv } k hk).R
        ((fftLaws { floatArith fl' fu mathPi ce with toInt := conv } k hk).accum l)
      = (fftLaws (floatArith fl fu mathPi ce) k hk).R ((fftLaws (floatArith fl fu mathPi ce) k hk).accum l) :=
  (accumR_conv hfl.noOverflow (agree_noOverflow hag) hce conv hconv k hk hk' l hl).trans
    (C93_accum hfl hag hce k hk hk' l (le_trans hl (by norm_num)))

end

/-- The hypotheses are satisfiable by functions that differ: beyond `2^700` the second one returns 0. -/
example (fu : Fusing) : ∃ (fl fl' : ℚ → ℚ) (ce : ℚ → ℚ × ℚ), IsRound fl ∧ (∀ x, |x| ≤ 2 ^ 700 → fl' x = fl x) ∧ CexpAccurate ce (1 / 2 ^ 52) ∧
    fl' (2 ^ 701) = 0 ∧ fl (2 ^ 701) ≠ 0 ∧ ∃ e, newPolyEval (floatArith fl fu mathPi ce) 1024 = some e := by
  obtain ⟨ce, hce⟩ := exists_cexp (1 / 2 ^ 52) (by norm_num)
  refine ⟨rne, fun x => if |x| ≤ 2 ^ 700 then rne x else 0, ce, isRound_rne, fun x hx => if_pos hx, hce, ?_, ?_, _,
    (newPolyEval_some _ 1024 _).2 ⟨9, by norm_num, by norm_num, rfl⟩⟩
  · refine if_neg ?_
    rw [abs_of_pos (pow_pos (by norm_num) _), not_le]
    exact pow_lt_pow_right₀ (by norm_num) (by norm_num)
  · have h := isRound_rne.exact 1 701 (by norm_num) (by norm_num) (by norm_num)
    have e : (2 : ℚ) ^ 701 = ((1 : ℤ) : ℚ) * 2 ^ (701 : ℤ) := by
      rw [Int.cast_one, one_mul]; exact (zpow_natCast 2 701).symm
    rw [e, h, ← e]
    exact pow_ne_zero _ (by norm_num)

/-- The conversion of the amd64 instruction `CVTTSD2SQ`, which returns `-2^63` outside the range, meets the hypothesis
and is not truncation. -/
example : ∃ conv : ℚ → ℤ, (∀ x : ℚ, |x| < 2 ^ 63 → conv x = truncZ x) ∧ conv (2 ^ 64) ≠ truncZ (2 ^ 64 : ℚ) := by
  refine ⟨fun x => if |x| < 2 ^ 63 then truncZ x else -2 ^ 63, fun x hx => if_pos hx, ?_⟩
  have h : ((2 : ℚ) ^ 64) = ((2 ^ 64 : ℤ) : ℚ) := by push_cast; rfl
  show (if |(2 : ℚ) ^ 64| < 2 ^ 63 then truncZ ((2 : ℚ) ^ 64) else -2 ^ 63) ≠ _
  rw [if_neg (by rw [abs_of_pos (by positivity)]; norm_num), h, truncZ_intQ]
  norm_num

end GoTfhe
