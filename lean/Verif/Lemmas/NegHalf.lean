import Verif.Lemmas.NegUnit
import Verif.Props.WrongKeyRing
import Verif.Lemmas.ProdProb
import Mathlib.Data.Fintype.BigOperators

/-!
# The image of multiplication by the difference of two keys contains every even polynomial
-/

namespace GoTfhe

open Finset Polynomial

/-- The coefficients of a polynomial -/
def fnOf {N : ℕ} (a : Fin N → Torus) : ℕ → Torus := fun i => if h : i < N then a ⟨i, h⟩ else 0

theorem fnOf_lt {N : ℕ} (a : Fin N → Torus) (i : ℕ) (h : i < N) : fnOf a i = a ⟨i, h⟩ := dif_pos h

/-- Multiplication by X -/
def shiftEnd (N : ℕ) : AddMonoid.End (Fin N → Torus) where
  toFun a := fun k => ext N (fnOf a) ((k : ℕ) - 1)
  map_zero' := by
    funext k
    have h : fnOf (0 : Fin N → Torus) = fun _ => 0 := by
      funext i; unfold fnOf; split_ifs <;> rfl
    rw [h]
    simp [ext, extG]
  map_add' a b := by
    funext k
    have h : fnOf (a + b) = fun i => fnOf a i + fnOf b i := by
      funext i; unfold fnOf; split_ifs <;> simp
    rw [h, ext_add]
    rfl

theorem shiftEnd_apply {N : ℕ} (a : Fin N → Torus) (k : Fin N) : shiftEnd N a k = ext N (fnOf a) ((k : ℕ) - 1) := rfl

theorem shiftEnd_pow {N : ℕ} (j : ℕ) (a : Fin N → Torus) (k : Fin N) :
    (shiftEnd N ^ j) a k = ext N (fnOf a) ((k : ℕ) - j) := by
  have hN : 0 < N := k.pos
  induction j generalizing k with
  | zero => simp [ext_of_lt N _ _ k.2, fnOf_lt]
  | succ j ih =>
    rw [pow_succ']
    change shiftEnd N ((shiftEnd N ^ j) a) k = _
    rw [shiftEnd_apply, ext_congr N hN _ (fun i => ext N (fnOf a) (i - j)), ext_shift N hN]
    · congr 1; push_cast; ring
    · intro i hi
      rw [fnOf_lt _ i hi, ih]

theorem shiftEnd_pow_N (N : ℕ) : shiftEnd N ^ N = -1 := by
  ext a k
  rw [shiftEnd_pow, ext_sub_N N k.pos, ext_of_lt N _ _ k.2, fnOf_lt _ _ k.2]
  rfl

theorem end_two_pow_apply {N : ℕ} (j : ℕ) (a : Fin N → Torus) (k : Fin N) :
    ((2 : AddMonoid.End (Fin N → Torus)) ^ j) a k = (2 : Torus) ^ j * a k := by
  induction j with
  | zero => rw [pow_zero, pow_zero, one_mul]; rfl
  | succ j ih =>
    rw [pow_succ', ← one_add_one_eq_two]
    change ((1 + 1 : AddMonoid.End (Fin N → Torus)) ^ j) a k + ((1 + 1 : AddMonoid.End (Fin N → Torus)) ^ j) a k = _
    rw [one_add_one_eq_two, ih]
    ring

theorem end_two_pow (N : ℕ) : (2 : AddMonoid.End (Fin N → Torus)) ^ 32 = 0 := by
  refine DFunLike.ext _ _ fun a => funext fun k => ?_
  rw [end_two_pow_apply]
  have h : (2 : Torus) ^ 32 = 0 := by decide
  rw [h, zero_mul]
  rfl

/-- A polynomial with integer coefficients, at multiplication by X -/
theorem aeval_shiftEnd {N : ℕ} (z : ℕ → ℤ) (a : Fin N → Torus) (k : Fin N) :
    (aeval (shiftEnd N) (∑ i ∈ range N, C (z i) * X ^ i : ℤ[X])) a k
      = negMul N (fun i => (z i : Torus)) (fnOf a) k := by
  rw [negMul_eq N _ _ _ k.2, map_sum]
  have h : ∀ i, aeval (shiftEnd N) (C (z i) * X ^ i : ℤ[X]) = z i • shiftEnd N ^ i := by
    intro i
    rw [map_mul, map_pow, aeval_X, aeval_C, algebraMap_int_eq, eq_intCast, zsmul_eq_mul]
  rw [sum_congr rfl fun i _ => h i, show (∑ i ∈ range N, z i • shiftEnd N ^ i) a = ∑ i ∈ range N, (z i • shiftEnd N ^ i) a from AddMonoidHom.finsetSum_apply _ _ _,
    Finset.sum_apply]
  refine sum_congr rfl fun i _ => ?_
  change (z i • (shiftEnd N ^ i) a) k = _
  rw [Pi.smul_apply, shiftEnd_pow, zsmul_eq_mul]

/-- The difference of two bits as an integer -/
def bitDiff (x y : Torus) : ℤ := if x = y then 0 else if x = 1 then 1 else -1

theorem bitDiff_cast {x y : Torus} (hx : x = 0 ∨ x = 1) (hy : y = 0 ∨ y = 1) : (bitDiff x y : Torus) = x - y := by
  rcases hx with rfl | rfl <;> rcases hy with rfl | rfl <;> decide

theorem bitDiff_odd {x y : Torus} (h : x ≠ y) : Odd (bitDiff x y) := by
  unfold bitDiff
  rw [if_neg h]
  split_ifs <;> decide

/-- The difference of the phases of a mask under two keys, as a homomorphism -/
def wrongHom (N : ℕ) (s s' : List Torus) : Mask N →+ (Fin N → Torus) where
  toFun a := fun k => maskHom (fun j => wrongCoef N s s' k j) a
  map_zero' := by funext k; exact map_zero _
  map_add' a b := by funext k; exact map_add _ _ _

theorem wrongHom_even (N m : ℕ) (hN : N = 2 ^ m) (hm : 1 ≤ m) (s s' : List Torus) (hs : IsBinary s) (hs' : IsBinary s')
    (hl : s.length = N) (hl' : s'.length = N) (hne : s ≠ s') (y : Fin N → Torus) :
    ∃ a : Mask N, wrongHom N s s' a = y + y := by
  have hNpos : 0 < N := by rw [hN]; positivity
  obtain ⟨⟨i, hi⟩, h⟩ := keys_differ N s s' hs hs' hl hl' hne
  have hdiff : at' s i ≠ at' s' i := by
    intro h1
    simp only at h
    rw [h1, sub_self] at h
    revert h; decide
  set z : ℕ → ℤ := fun i => bitDiff (at' s i) (at' s' i)
  set d : ℤ[X] := ∑ i ∈ range N, C (z i) * X ^ i
  have hdeg : d.natDegree < N := by
    refine lt_of_le_of_lt (natDegree_sum_le_of_forall_le (n := N - 1) _ _ fun j hj => ?_) (by omega)
    have := mem_range.1 hj
    exact (natDegree_C_mul_X_pow_le _ _).trans (by omega)
  have hcoef : d.coeff i = z i := by
    rw [finsetSum_coeff]
    simp only [coeff_C_mul_X_pow]
    rw [sum_ite_eq, if_pos (mem_range.2 hi)]
  obtain ⟨e, he⟩ := half_aeval (shiftEnd N) m hm (by rw [← hN]; exact shiftEnd_pow_N N) 32 (end_two_pow N) d
    (by rw [← hN]; exact hdeg)
    ⟨i, by rw [hcoef]; exact bitDiff_odd hdiff⟩
  refine ⟨fun k => (e y k).toFin, ?_⟩
  funext k
  change maskHom (fun j => wrongCoef N s s' k j) _ = _
  rw [← negMul_keys N s s' _ k (fnOf (e y)) (fun i hi => by rw [fnOf_lt _ _ hi, Mask.draw, dif_pos hi]),
    negMul_comm N _ _ _ k.2, negMul_comm N _ (at' s') _ k.2]
  have h1 : negMul N (fun i => (z i : Torus)) (fnOf (e y)) k = negMul N (at' s) (fnOf (e y)) k - negMul N (at' s') (fnOf (e y)) k := by
    rw [negMul_eq N _ _ _ k.2, negMul_eq N _ _ _ k.2, negMul_eq N _ _ _ k.2, ← sum_sub_distrib]
    refine sum_congr rfl fun j _ => ?_
    rw [bitDiff_cast (isBinary_at' hs j) (isBinary_at' hs' j)]
    ring
  rw [← h1, ← aeval_shiftEnd]
  have h3 : aeval (shiftEnd N) d (e y) = (2 : AddMonoid.End (Fin N → Torus)) y := DFunLike.congr_fun he y
  rw [h3]
  rw [← one_add_one_eq_two]
  rfl

/-- Probabilities over products of independent draws -/
theorem uprob_pi {n : ℕ} {X : Type*} [Fintype X] (E : Fin n → X → Prop) :
    uprob (fun y : Fin n → X => ∀ k, E k (y k)) = ∏ k, uprob (E k) := by
  classical
  unfold uprob
  rw [prod_div_distrib, Fintype.card_fun, Fintype.card_fin, prod_const, card_univ, Fintype.card_fin]
  have h : ∀ k, Set.ncard {x | E k x} = (univ.filter (E k)).card := by
    intro k
    rw [← Set.ncard_coe_finset]
    congr 1; ext x; simp
  simp only [h]
  rw [← Nat.cast_prod, ← Fintype.card_piFinset, ← Set.ncard_coe_finset]
  congr 3
  · ext y; simp
  · push_cast; rfl

theorem sign_flip (x : Torus) : decide (0 ≤ (x + 2147483648#32).toInt) = !decide (0 ≤ x.toInt) := by
  rw [← decide_not]
  congr 1
  rw [BitVec.toInt_eq_toNat_cond, BitVec.toInt_eq_toNat_cond, BitVec.toNat_add]
  have := x.isLt
  simp only [BitVec.toNat_ofNat]
  apply propext
  split_ifs <;> omega

/-- An even offset makes a sign a coin flip. -/
theorem uprob_even_sign (c : Torus) (out : Bool) :
    uprob (fun y : Torus => decide (0 ≤ (c + (y + y)).toInt) = out) = 1 / 2 := by
  have key : ∀ b : Bool, uprob (fun y : Torus => decide (0 ≤ (c + (y + y)).toInt) = b)
      = uprob fun y : Torus => decide (0 ≤ (c + (y + y)).toInt) = !b := by
    intro b
    rw [← uprob_equiv (Equiv.addRight (1073741824#32 : Torus)) fun y : Torus => decide (0 ≤ (c + (y + y)).toInt) = b]
    apply uprob_congr
    intro y
    have h : c + (Equiv.addRight (1073741824#32 : Torus) y + Equiv.addRight (1073741824#32 : Torus) y)
        = c + (y + y) + 2147483648#32 := by
      simp only [Equiv.coe_addRight]
      have : (2147483648#32 : Torus) = 1073741824#32 + 1073741824#32 := by decide
      rw [this]; ring
    rw [h, sign_flip]
    cases b <;> simp
  have hsum := uprob_not (fun y : Torus => decide (0 ≤ (c + (y + y)).toInt) = out)
  have h1 := key out
  have h3 : uprob (fun y : Torus => decide (0 ≤ (c + (y + y)).toInt) = !out)
      = uprob fun y : Torus => ¬ decide (0 ≤ (c + (y + y)).toInt) = out := by
    apply uprob_congr
    intro y
    cases out <;> simp
  rw [← h3, ← h1] at hsum
  linarith

/-- If the image of a homomorphism contains every even vector, the signs of a translate are independent coins. -/
theorem uprob_signs {n : ℕ} {A : Type*} [Fintype A] [AddGroup A] (F : A →+ (Fin n → Torus))
    (hF : ∀ y, ∃ a, F a = y + y) (v : Fin n → Torus) (out : Fin n → Bool) :
    uprob (fun a => ∀ k, decide (0 ≤ (v k + F a k).toInt) = out k) = 1 / 2 ^ n := by
  classical
  choose ℓ hℓ using hF
  set E : (Fin n → Torus) → Prop := fun x => ∀ k, decide (0 ≤ (v k + x k).toInt) = out k with hE
  have hshift : ∀ y, uprob (fun a => E (F a)) = uprob fun a => E (F a + (y + y)) := by
    intro y
    rw [← uprob_equiv (Equiv.addRight (ℓ y)) fun a => E (F a)]
    apply uprob_congr
    intro a
    rw [Equiv.coe_addRight, map_add, hℓ]
  have hin : ∀ a, uprob (fun y : Fin n → Torus => E (F a + (y + y))) = 1 / 2 ^ n := by
    intro a
    have h := uprob_pi (n := n) (X := Torus) fun k y => decide (0 ≤ (v k + F a k + (y + y)).toInt) = out k
    rw [prod_congr rfl fun k _ => uprob_even_sign (v k + F a k) (out k), prod_const, card_univ, Fintype.card_fin,
      div_pow, one_pow] at h
    rw [← h]
    apply uprob_congr
    intro y
    simp only [hE, Pi.add_apply, add_assoc]
  have : Nonempty A := ⟨0⟩
  rw [← avg_const (Ω := Fin n → Torus) (uprob fun a => E (F a)), show (fun _ : Fin n → Torus => uprob fun a => E (F a))
    = fun y => uprob fun a => E (F a + (y + y)) from funext hshift]
  simp only [uprob_avg] at hin ⊢
  rw [avg_swap, show (fun a => avg fun y : Fin n → Torus => if E (F a + (y + y)) then (1 : ℝ) else 0) = fun _ => 1 / 2 ^ n from funext hin,
    avg_const]

end GoTfhe
