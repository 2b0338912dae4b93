import Verif.Lemmas.ProdProb
import Verif.Spec.GateRun
import Verif.Lemmas.Gates

/-!
# The random numbers of one gate: weights of the keys, lost bits
-/

namespace GoTfhe

open Finset

variable {O : FourierOps}

/-- A fresh encryption of a bit. -/
def bitCt {n : ℕ} (s : Fin n → Bool) (a : Mask n) (b : Bool) (u : ℚ) : List Torus :=
  ctOf n a (maskDot s a + (f64ToTorus (if b then 0.125 else -0.125) + f64ToTorus u))

theorem encryptBool_bitCt (P : Params) (b : Bool) (s : Fin P.tlweLv0.N → Bool) (a : Mask P.tlweLv0.N) (u : ℚ) :
    tlwe0EncryptBool P (newTLWELv0 P) b (keyOf s) a.draw u = some (bitCt s a b u) := encrypt_ctOf P _ u s a

theorem at'_bitCt {n : ℕ} (s : Fin n → Bool) (a : Mask n) (b : Bool) (u : ℚ) (i : ℕ) (hi : i < n) :
    at' (bitCt s a b u) i = a.draw i := by
  unfold bitCt ctOf
  rw [at'_tab _ _ _ (by omega), if_neg (by omega)]

/-- What the gate bootstraps. -/
def prepOf (P : Params) (g : Gate2) (xa xb : Bool) (u v : ℚ) (x : GateDice P) : List Torus :=
  lin P.tlweLv0.N g.coef.1 g.coef.2.1 g.coef.2.2 (bitCt x.coins0 x.maskA xa u) (bitCt x.coins0 x.maskB xb v)

theorem gatePrepare_prepOf (P : Params) (g : Gate2) (xa xb : Bool) (u v : ℚ) (x : GateDice P) :
    gatePrepare P g (bitCt x.coins0 x.maskA xa u) (bitCt x.coins0 x.maskB xb v) = some (prepOf P g xa xb u v x) :=
  gatePrepare_eq P g _ _ (by simp [bitCt, ctOf]) (by simp [bitCt, ctOf])

theorem newSecretKey_keyOf {P : Params} (W : WellFormed P) (b0 : Fin P.tlweLv0.N → Bool) (b1 : Fin P.trgswLv1.N → Bool) :
    newSecretKey P (keyCoins b0) (keyCoins b1) = some ⟨keyOf b0, keyOf b1⟩ := by
  unfold newSecretKey
  rw [keyLoop_eq, keyLoop_eq, W.lv1_eq]
  rfl

/-- Averages over the dice, one die after the other. -/
theorem avg_dice (P : Params) (f : GateDice P → ℝ) :
    avg f = avg fun b0 => avg fun b1 => avg fun m => avg fun a => avg fun b => f ⟨b0, b1, m, a, b⟩ := by
  rw [← avg_equiv (GateDice.equiv P).symm, avg_prod, avg_prod]
  refine congrArg avg (funext fun b0 => congrArg avg (funext fun b1 => ?_))
  rw [avg_prod]
  exact congrArg avg (funext fun m => avg_prod _)

theorem avg_mask (n : ℕ) (c : ℝ) : avg (fun _ : Mask n => c) = c :=
  haveI : Nonempty (Mask n) := ⟨fun _ => 0⟩
  avg_const c

theorem avg_keyMasks (P : Params) (c : ℝ) : avg (fun _ : KeyMasks P => c) = c :=
  haveI : Nonempty (KeyMasks P) := ⟨fun _ _ _ => 0⟩
  avg_const c

theorem avg_coins (n : ℕ) (c : ℝ) : avg (fun _ : Fin n → Bool => c) = c :=
  haveI : Nonempty (Fin n → Bool) := ⟨fun _ => false⟩
  avg_const c

theorem avg_comm3 {A B C : Type*} [Fintype A] [Fintype B] [Fintype C] (f : A → B → C → ℝ) :
    avg (fun a => avg fun b => avg fun c => f a b c) = avg fun c => avg fun a => avg fun b => f a b c := by
  rw [avg_swap (fun c a => avg fun b => f a b c)]
  exact congrArg avg (funext fun a => avg_swap _)

theorem dice_weight0 (P : Params) (h0 : 0 < P.tlweLv0.N) (W0 : ℕ) (h : P.tlweLv0.N ≤ 2 * W0) :
    uprob (fun x : GateDice P => W0 < weight P.tlweLv0.N (keyOf x.coins0))
      ≤ Real.exp (-(2 * (W0 + 1 - P.tlweLv0.N / 2 : ℝ) ^ 2 / P.tlweLv0.N)) := by
  refine le_trans (le_of_eq ?_) (weight_tail _ W0 h0 h)
  rw [uprob_avg, uprob_avg, avg_dice]
  refine congrArg avg (funext fun b0 => ?_)
  show (avg fun _ : Fin P.trgswLv1.N → Bool => avg fun _ : KeyMasks P => avg fun _ : Mask P.tlweLv0.N =>
    avg fun _ : Mask P.tlweLv0.N => if W0 < weight P.tlweLv0.N (keyOf b0) then (1 : ℝ) else 0) = _
  simp only [avg_mask, avg_keyMasks, avg_coins]

theorem dice_weight1 (P : Params) (h0 : 0 < P.trgswLv1.N) (W1 : ℕ) (h : P.trgswLv1.N ≤ 2 * W1) :
    uprob (fun x : GateDice P => W1 < weight P.trgswLv1.N (keyOf x.coins1))
      ≤ Real.exp (-(2 * (W1 + 1 - P.trgswLv1.N / 2 : ℝ) ^ 2 / P.trgswLv1.N)) := by
  refine le_trans (le_of_eq ?_) (weight_tail _ W1 h0 h)
  rw [uprob_avg, uprob_avg, avg_dice]
  show (avg fun _ : Fin P.tlweLv0.N → Bool => avg fun b1 : Fin P.trgswLv1.N → Bool => avg fun _ : KeyMasks P =>
    avg fun _ : Mask P.tlweLv0.N => avg fun _ : Mask P.tlweLv0.N =>
      if W1 < weight P.trgswLv1.N (keyOf b1) then (1 : ℝ) else 0) = _
  simp only [avg_mask, avg_keyMasks, avg_coins]

open Classical in
/-- The mean of the lost bits over the dice. -/
theorem dice_bias {P : Params} (W : WellFormed P) (g : Gate2) (xa xb : Bool) (u v : ℚ) (lam X η : ℝ) (hl : 0 ≤ lam) (W1 : ℕ)
    (hX : lam * W1 ≤ X) (hX1 : X ≤ 1) (hη : 0 < η)
    (hs : 2 * (1 + 1 / η) * P.trgswLv1.N * (P.tlweLv0.N * (1 + 5 / 48 * X ^ 2) * lam ^ 2 / 4 / 4) < 1) (B : ℝ) :
    uprob (fun x : GateDice P => weight P.trgswLv1.N (keyOf x.coins1) ≤ W1 ∧
        B ≤ |((lostBias P (prepOf P g xa xb u v x) (keyOf x.coins0) (keyOf x.coins1) : ℤ) : ℝ)|)
      ≤ 2 * Real.exp (-(lam * B) + lam * W1 + biasExp P.tlweLv0.N P.trgswLv1.N lam X η) := by
  rw [uprob_avg, avg_dice]
  have e : ∀ (b0 : Fin P.tlweLv0.N → Bool) (b1 : Fin P.trgswLv1.N → Bool) (m : KeyMasks P) (a b : Mask P.tlweLv0.N),
      (if weight P.trgswLv1.N (keyOf b1) ≤ W1 ∧ B ≤ |((lostBias P (prepOf P g xa xb u v ⟨b0, b1, m, a, b⟩) (keyOf b0)
        (keyOf b1) : ℤ) : ℝ)| then (1 : ℝ) else 0)
      = if weight P.trgswLv1.N (keyOf b1) ≤ W1 ∧ B ≤ |((lostBias P (tab P.tlweLv0.N fun i => g.coef.1 * a.draw i
          + g.coef.2.1 * b.draw i) (keyOf b0) (keyOf b1) : ℤ) : ℝ)| then (1 : ℝ) else 0 := by
    intro b0 b1 m a b
    rw [lostBias_congr P _ (tab P.tlweLv0.N fun i => g.coef.1 * a.draw i + g.coef.2.1 * b.draw i)]
    intro i hi
    unfold prepOf lin
    rw [at'_tab _ _ _ (by omega), at'_tab _ _ _ hi, at'_bitCt _ _ _ _ _ hi, at'_bitCt _ _ _ _ _ hi, if_neg (by omega), add_zero]
  simp only [e, avg_keyMasks]
  have e2 : ∀ f : (Fin P.tlweLv0.N → Bool) → (Fin P.trgswLv1.N → Bool) → Mask P.tlweLv0.N → Mask P.tlweLv0.N → ℝ,
      (avg fun b0 => avg fun b1 => avg fun a => avg fun b => f b0 b1 a b)
        = avg fun b => avg fun b0 => avg fun b1 => avg fun a => f b0 b1 a b := by
    intro f
    rw [← avg_comm3 fun b0 b1 b => avg fun a => f b0 b1 a b]
    exact congrArg avg (funext fun b0 => congrArg avg (funext fun b1 => avg_swap _))
  rw [e2]
  refine avg_le fun b => ?_
  exact bias_tail W g.coef.1 (by cases g <;> simp [Gate2.coef]) (fun i => g.coef.2.1 * b.draw i) _
    (fun a i hi => at'_tab _ _ _ hi) lam X η hl W1 hX hX1 hη hs B

open Classical in
/-- The fluctuation of the lost bits over the dice. -/
theorem dice_fluct {P : Params} (W : WellFormed P) (L : FourierLaws O) (hd : O.deg = P.trgswLv1.N)
    (hacc0 : L.Accurate (P.trgswLv1.L * 2) 0 0) {D : ℕ} (hD : D ≤ 32)
    (hacc : L.Accurate (P.trgswLv1.L * 2) (2 ^ (P.trgswLv1.BGBIT - 1)) D) (hL : P.trgswLv1.L = 3)
    (hb : P.trgswLv1.BGBIT = 6) (R : KeyGenRand) (g : Gate2) (xa xb : Bool) (u v : ℚ) (W0 W1 : ℕ) (hv : 0 < W0 * W1) (T : ℝ)
    (hT0 : 0 ≤ T) (hT : T ≤ 16640 * (W0 * W1)) :
    uprob (fun x : GateDice P => weight P.tlweLv0.N (keyOf x.coins0) ≤ W0 ∧ weight P.trgswLv1.N (keyOf x.coins1) ≤ W1 ∧
        T + 8192 * W1 + 160 * (W0 * W1) ≤ |(lostFluct P L (keyOf x.coins0) (keyOf x.coins1) R (gateTv P)
          (prepOf P g xa xb u v x) x.bsk : ℝ)|)
      ≤ 2 * Real.exp (-(T ^ 2 / (8 * 8320 ^ 2 * (W0 * W1)))) + 2 * (P.tlweLv0.N * (1 / 2) ^ 2 ^ (P.trgswLv1.NBIT - 1)) := by
  have hpos : 0 ≤ 2 * Real.exp (-(T ^ 2 / (8 * 8320 ^ 2 * (W0 * W1))))
      + 2 * (P.tlweLv0.N * (1 / 2) ^ 2 ^ (P.trgswLv1.NBIT - 1)) := by positivity
  rw [uprob_avg, avg_dice]
  refine avg_le fun b0 => avg_le fun b1 => ?_
  rw [← avg_comm3 (fun a b m => _)]
  refine avg_le fun a => avg_le fun b => ?_
  by_cases h0 : weight P.tlweLv0.N (keyOf b0) ≤ W0
  · by_cases h1 : weight P.trgswLv1.N (keyOf b1) ≤ W1
    · refine le_trans (le_of_eq (congrArg avg (funext fun m => ?_))) (lostFluct_tail W L hd hacc0 hD hacc hL hb (keyOf b0) (keyOf b1)
        (isBinary_keyOf _) (isBinary_keyOf _) R (prepOf P g xa xb u v ⟨b0, b1, fun _ _ _ => 0, a, b⟩) W0 W1 h0 h1 hv T hT0 hT)
      by_cases h2 : T + 8192 * W1 + 160 * (W0 * W1) ≤ |(lostFluct P L (keyOf b0) (keyOf b1) R (gateTv P)
          (prepOf P g xa xb u v ⟨b0, b1, fun _ _ _ => 0, a, b⟩) m : ℝ)|
      · rw [if_pos h2]; exact if_pos ⟨h0, h1, h2⟩
      · rw [if_neg h2]; exact if_neg fun h => h2 h.2.2
    · refine le_trans (avg_le (c := 0) fun m => le_of_eq (if_neg fun h => h1 h.2.1)) hpos
  · refine le_trans (avg_le (c := 0) fun m => le_of_eq (if_neg fun h => h0 h.1)) hpos

theorem lostFluct_congr (P : Params) (L : FourierLaws O) (k0 k1 : List Torus) (R R' : KeyGenRand) (tv : Trlwe)
    (c : List Torus) (ω : KeyMasks P) (h : ∀ i < P.tlweLv0.N, ∀ j < P.trgswLv1.L * 2, ∀ k < P.trgswLv1.N,
      R.bskSample i j k = R'.bskSample i j k) :
    lostFluct P L k0 k1 R tv c ω = lostFluct P L k0 k1 R' tv c ω := by
  have e : bskM P L k0 k1 R ω = bskM P L k0 k1 R' ω := by
    unfold bskM
    refine tab_congr fun i hi => ?_
    congr 1
    unfold gswOf
    refine tab_congr fun j hj => ?_
    exact gswRow_congr P L _ _ _ _ _ _ fun k hk => h i hi j (by omega) k hk
  unfold lostFluct fluctM inM
  rw [e]

end GoTfhe
