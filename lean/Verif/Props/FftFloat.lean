import Verif.Props.Fft
import Verif.Lemmas.FftAcc
import Verif.Lemmas.FftRange

/-!
# C21: the Fourier transform in rounded arithmetic

Every operation rounds as binary64 does (`IsRound`: relative error at most `2^-53` between `2^-1022` and `2^1023`,
absolute error at most `2^-1075` below, nothing assumed above), `math.Pi` is the nearest `float64`, and
`cmplx.Exp` on an imaginary argument of size at most 4 is within `2^-52` of the exact value (`CexpAccurate`). The compiler
may fuse any multiplication with the addition or subtraction that consumes it (`Fusing`): the bounds hold for every choice.
-/

namespace GoTfhe

open Finset

section

variable {fl : ℚ → ℚ} (hfl : IsRound fl) {fu : Fusing} {ce : ℚ → ℚ × ℚ} (hce : CexpAccurate ce (1 / 2 ^ 52))

include hfl hce

/-- **C21.** The transform in rounded arithmetic, as a backend: a sum of at most `cnt` products with first factors of
size at most `bnd` is off by at most `D` in every coefficient as soon as
`cnt N bnd 2^-22 (66 k + 2 cnt + 6) < D + 1/2 - 2^-20`, where `N = 2^(k+1)`. -/
theorem C21_accurate (k : ℕ) (hk : 3 ≤ k) (hk' : k ≤ 30) (cnt bnd D : ℕ) (hc : cnt ≤ 2 ^ 20)
    (hD : (cnt * 2 ^ (k + 1) * bnd : ℝ) / 2 ^ 22 * (66 * k + 2 * cnt + 6) + 1 / 2 ^ 20 < D + 1 / 2) :
    (fftLaws (floatArith fl fu mathPi ce) k hk).Accurate cnt bnd D :=
  accurateR (fl := fl) (gl := noOverflow fl) hfl.noOverflow (noOverflow_agree fl) hce k hk hk' cnt bnd D hc
    (accurateU hfl.noOverflow hce k hk hk' cnt bnd D hc hD)

/-- **C21**, one product with a second factor of size at most `bnd`. -/
theorem C21_mulAccurate (k : ℕ) (hk : 3 ≤ k) (hk' : k ≤ 30) (bnd D : ℕ)
    (hD : (2 ^ (k + 1) * bnd : ℝ) / 2 ^ 22 * (66 * k + 8) + 1 / 2 ^ 20 < D + 1 / 2) :
    (fftLaws (floatArith fl fu mathPi ce) k hk).MulAccurate bnd D :=
  mulAccurateR (fl := fl) (gl := noOverflow fl) hfl.noOverflow (noOverflow_agree fl) hce k hk hk' bnd D
    (mulAccurateU hfl.noOverflow hce k hk hk' bnd D hD)

/-- **C21**, `MulPoly`: every coefficient of the product of a polynomial with a polynomial of size at most `bnd`
is within `D` of the exact one. -/
theorem C21_mulPoly (k : ℕ) (hk' : k ≤ 30) (e : PolyEval ℚ)
    (he : newPolyEval (floatArith fl fu mathPi ce) ((2 ^ (k + 1) : ℕ) : ℤ) = some e) (p0 p1 : List Torus)
    (h0 : p0.length = 2 ^ (k + 1)) (h1 : p1.length = 2 ^ (k + 1)) (bnd D : ℕ) (hb : ∀ i, nrm (at' p1 i) ≤ bnd)
    (hD : (2 ^ (k + 1) * bnd : ℝ) / 2 ^ 22 * (66 * k + 8) + 1 / 2 ^ 20 < D + 1 / 2) :
    ∃ r, polyMul (floatArith fl fu mathPi ce) e p0 p1 = some r ∧ r.length = 2 ^ (k + 1) ∧
      ∀ i < 2 ^ (k + 1), nrm (at' r i - negMul (2 ^ (k + 1)) (at' p0) (at' p1) i) ≤ D := by
  obtain ⟨k', hk, hN, rfl⟩ := (newPolyEval_some _ _ e).1 he
  have : k = k' := by
    have : 2 ^ (k + 1) = 2 ^ (k' + 1) := by exact_mod_cast hN
    have := Nat.pow_right_injective (le_refl 2) this
    omega
  subst this
  have hacc := C21_mulAccurate hfl (fu := fu) hce k hk hk' bnd D hD
  have hnP : newPoly ((pev (floatArith fl fu mathPi ce) k).degree : ℤ) = some (mkSlice (2 ^ (k + 1)) 0) := newPoly_pow k hk
  unfold polyMul
  simp only [hnP, Option.bind_eq_bind, Option.bind_some]
  rw [mulPolyAssign_eq (floatArith fl fu mathPi ce) _ k hk p0 p1 _ h0 h1 (by simp)]
  refine ⟨_, rfl, by simp, ?_⟩
  intro i hi
  rw [at'_tab _ _ _ hi]
  exact hacc p0 p1 h0 h1 hb i hi

/-- **C21**, exactness: for `N ≤ 2048` (all parameter sets) the product of any polynomial with a polynomial with
coefficients in `{-1, 0, 1}` is exactly the product in `(Z/2^32)[X]/(X^N+1)`: no coefficient is off by even one. -/
theorem C21_mulPoly_exact (N : ℤ) (hN : N ≤ 2048) (e : PolyEval ℚ)
    (he : newPolyEval (floatArith fl fu mathPi ce) N = some e) (p0 p1 : List Torus)
    (h0 : (p0.length : ℤ) = N) (h1 : (p1.length : ℤ) = N) (hb : ∀ i, nrm (at' p1 i) ≤ 1) :
    polyMul (floatArith fl fu mathPi ce) e p0 p1 = some (tab N.toNat (negMul N.toNat (at' p0) (at' p1))) := by
  obtain ⟨k, hk, rfl, rfl⟩ := (newPolyEval_some _ N e).1 he
  have hk10 : k ≤ 10 := by
    by_contra h
    have h2 : 2 ^ 12 ≤ 2 ^ (k + 1) := Nat.pow_le_pow_right (by omega) (by omega)
    have h3 : 2 ^ (k + 1) ≤ 2048 := by exact_mod_cast hN
    omega
  have h0' : p0.length = 2 ^ (k + 1) := by exact_mod_cast h0
  have h1' : p1.length = 2 ^ (k + 1) := by exact_mod_cast h1
  obtain ⟨r, hr, hl, hi⟩ := C21_mulPoly hfl hce k (by omega) _ he p0 p1 h0' h1' 1 0 hb (by
    have hP : (2 : ℝ) ^ (k + 1) ≤ 2048 := by
      calc (2 : ℝ) ^ (k + 1) ≤ 2 ^ 11 := pow_le_pow_right₀ (by norm_num) (by omega)
        _ = _ := by norm_num
    have hkR : (k : ℝ) ≤ 10 := by exact_mod_cast hk10
    have h1 : (2 : ℝ) ^ (k + 1) / 2 ^ 22 ≤ 1 / 2048 := by
      rw [div_le_div_iff₀ (by norm_num) (by norm_num)]; linarith
    have h2 : 66 * (k : ℝ) + 8 ≤ 668 := by linarith
    have h3 := mul_le_mul h1 h2 (by positivity) (by norm_num)
    push_cast
    rw [mul_one]
    refine lt_of_le_of_lt (add_le_add h3 le_rfl) ?_
    norm_num)
  rw [hr, Int.toNat_natCast]
  congr 1
  apply eq_tab_of _ _ _ hl
  intro i hil
  have h := hi i (by omega)
  have hz : at' r i - negMul (2 ^ (k + 1)) (at' p0) (at' p1) i = 0 := by
    have : nrm (at' r i - negMul (2 ^ (k + 1)) (at' p0) (at' p1) i) = 0 := by omega
    unfold nrm at this
    rw [Int.natAbs_eq_zero] at this
    exact BitVec.eq_of_toInt_eq (by rw [this]; rfl)
  rw [← at'_of_lt _ _ hil]
  exact sub_eq_zero.1 hz

/-- The same as a backend: multiplication by a binary key is exact for `N ≤ 2048`. -/
theorem C21_backend_binary (k : ℕ) (hk : 3 ≤ k) (hk10 : k ≤ 10) :
    (fftLaws (floatArith fl fu mathPi ce) k hk).MulAccurate 1 0 := by
  intro a b ha hb hbn i hi
  have hle : ((2 ^ (k + 1) : ℕ) : ℤ) ≤ 2048 := by
    have : 2 ^ (k + 1) ≤ 2 ^ 11 := Nat.pow_le_pow_right (by omega) (by omega)
    exact_mod_cast this
  have ha' : a.length = 2 ^ (k + 1) := ha
  have hb' : b.length = 2 ^ (k + 1) := hb
  have h := C21_mulPoly_exact hfl hce _ hle _ (newPolyEval_eq (floatArith fl fu mathPi ce) k hk) a b
    (by exact_mod_cast ha') (by exact_mod_cast hb') hbn
  have hnP : newPoly ((pev (floatArith fl fu mathPi ce) k).degree : ℤ) = some (mkSlice (2 ^ (k + 1)) 0) := newPoly_pow k hk
  unfold polyMul at h
  simp only [hnP, Option.bind_eq_bind, Option.bind_some] at h
  rw [mulPolyAssign_eq (floatArith fl fu mathPi ce) _ k hk a b _ ha' hb' (by simp), Int.toNat_natCast] at h
  have hi' : i < 2 ^ (k + 1) := hi
  have e := tab_inj.1 (Option.some.inj h) i hi'
  refine le_of_eq ?_
  show nrm (at' (fftR (floatArith fl fu mathPi ce) k (fftMul (floatArith fl fu mathPi ce) k
    (fftT (floatArith fl fu mathPi ce) k a) (fftT (floatArith fl fu mathPi ce) k b))) i
      - negMul (2 ^ (k + 1)) (at' a) (at' b) i) = 0
  rw [e, sub_self]; rfl

/-- The 80, 110 and 128-bit sets: an external product (6 products of a digit of size at most 32 with a key
polynomial of degree 1024) is off by at most 29 units of `2^-32`. -/
theorem C21_backend_external : (fftLaws (floatArith fl fu mathPi ce) 9 (by norm_num)).Accurate 6 32 29 := by
  apply C21_accurate hfl hce 9 (by norm_num) (by norm_num) 6 32 29 (by norm_num)
  norm_num

end

/-- The hypotheses are satisfiable: a rounding function, an exponential and an evaluator of degree 1024. -/
example (fu : Fusing) : ∃ fl ce, IsRound fl ∧ CexpAccurate ce (1 / 2 ^ 52) ∧
    ∃ e, newPolyEval (floatArith fl fu mathPi ce) 1024 = some e := by
  obtain ⟨ce, hce⟩ := exists_cexp (1 / 2 ^ 52) (by norm_num)
  exact ⟨rne, ce, isRound_rne, hce, _, (newPolyEval_some _ 1024 _).2 ⟨9, by norm_num, by norm_num, rfl⟩⟩

end GoTfhe
