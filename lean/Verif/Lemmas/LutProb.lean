import Verif.Lemmas.LutTail
import Verif.Lemmas.SessionProb
import Verif.Props.MsgProgram

/-!
# The random numbers of one table look-up
-/

namespace GoTfhe

open Finset

variable {O : FourierOps}

/-- A fresh encryption of a message. -/
def msgCt (fl : ℚ → ℚ) (k : ℕ) {n : ℕ} (s : Fin n → Bool) (a : Mask n) (msg : ℤ) (u : ℚ) : List Torus :=
  ctOf n a (maskDot s a + (f64ToTorus (fl (((msg % ((2 ^ k : ℕ) : ℤ) : ℤ) : ℚ) * fl ((2 ^ 31 : ℚ) / (((2 ^ k : ℕ) : ℤ) : ℚ))) / 2 ^ 32)
    + f64ToTorus u))

theorem encryptLWEMessage_msgCt (fl : ℚ → ℚ) (P : Params) (k : ℕ) (s : Fin P.tlweLv0.N → Bool) (a : Mask P.tlweLv0.N)
    (msg : ℤ) (u : ℚ) :
    encryptLWEMessage fl P (newTLWELv0 P) msg ((2 ^ k : ℕ) : ℤ) (keyOf s) a.draw u = some (msgCt fl k s a msg u) := by
  have g := goMod_fix msg ((2 ^ k : ℕ) : ℤ) (by positivity)
  unfold encryptLWEMessage msgCt
  cases hg : goMod msg ((2 ^ k : ℕ) : ℤ) with
  | none => rw [hg] at g; cases g
  | some r =>
    rw [hg] at g
    simp only [Option.map_some, Option.some.injEq] at g
    rw [← g]
    exact encrypt_ctOf P _ u s a

theorem at'_msgCt (fl : ℚ → ℚ) (k : ℕ) {n : ℕ} (s : Fin n → Bool) (a : Mask n) (msg : ℤ) (u : ℚ) (i : ℕ) (hi : i < n) :
    at' (msgCt fl k s a msg u) i = a.draw i := by
  unfold msgCt ctOf
  rw [at'_tab _ _ _ (by omega), if_neg (by omega)]

theorem ext_cases (N : ℕ) (f : ℕ → Torus) (S : Torus → Prop) (h1 : ∀ j, S (f j)) (h2 : ∀ j, S (-f j)) (z : ℤ) :
    S (ext N f z) := by
  unfold ext extG
  split_ifs
  · exact h1 _
  · exact h2 _

theorem val_two (fl : ℚ → ℚ) (hfl : IsRound fl) (y : ℤ) :
    (newEncoder fl ((2 ^ 1 : ℕ) : ℤ)).val fl y = 0 ∨ (newEncoder fl ((2 ^ 1 : ℕ) : ℤ)).val fl y = 1073741824#32 := by
  unfold Encoder.val newEncoder
  have h : fl (1 / ((2 * ((2 ^ 1 : ℕ) : ℤ) : ℤ) : ℚ)) = 1 / 4 := by
    have := hfl.exact 1 (-2) (by norm_num) (by norm_num) (by norm_num)
    rw [show (1 / ((2 * ((2 ^ 1 : ℕ) : ℤ) : ℤ) : ℚ)) = ((1 : ℤ) : ℚ) * 2 ^ (-2 : ℤ) by norm_num, this]
    norm_num
  simp only [h]
  have hm : y % ((2 ^ 1 : ℕ) : ℤ) = 0 ∨ y % ((2 ^ 1 : ℕ) : ℤ) = 1 := by
    push_cast
    omega
  rcases hm with hm | hm
  · left
    have := hfl.exact 0 0 (by norm_num) (by norm_num) (by norm_num)
    rw [hm, show (((0 : ℤ) : ℚ) * (1 / 4)) = ((0 : ℤ) : ℚ) * 2 ^ (0 : ℤ) by norm_num, this]
    have := f64ToTorus_int_div 0 (by norm_num) (by norm_num)
    rw [show ((0 : ℤ) : ℚ) * 2 ^ (0 : ℤ) = ((0 : ℤ) : ℚ) / 2 ^ 32 by norm_num, this]
    rfl
  · right
    have := hfl.exact 1 (-2) (by norm_num) (by norm_num) (by norm_num)
    rw [hm, show (((1 : ℤ) : ℚ) * (1 / 4)) = ((1 : ℤ) : ℚ) * 2 ^ (-2 : ℤ) by norm_num, this,
      show ((1 : ℤ) : ℚ) * 2 ^ (-2 : ℤ) = 0.25 by norm_num]
    exact f64ToTorus_quarter

/-- With two messages every entry of a table is zero or a quarter of the torus, up to sign. -/
theorem tvOk_two {P : Params} (W : WellFormed P) (hN : P.trgswLv1.N ≤ 65536) (fl : ℚ → ℚ) (hfl : IsRound fl)
    (f : ℤ → Option ℤ) (F : ℕ → ℤ) (hF : ∀ x < 2 ^ 1, f (x : ℕ) = some (F x)) (t : Trlwe)
    (ht : (newGenerator fl P ((2 ^ 1 : ℕ) : ℤ)).genLookUpTable fl P f = some t) : TvOk P t := by
  have hN1 : 1 ≤ P.trgswLv1.N := by have := W.min_degree; omega
  have e : (newGenerator fl P ((2 ^ 1 : ℕ) : ℤ)).genLookUpTable fl P f
      = some (lutTable P.trgswLv1.N (2 ^ 1) fun x => (newEncoder fl ((2 ^ 1 : ℕ) : ℤ)).val fl (F x)) := by
    unfold Generator.genLookUpTable
    exact Generator.genLookUpTableAssign_eq fl (newGenerator fl P ((2 ^ 1 : ℕ) : ℤ)) f F (2 ^ 1) (by norm_num) rfl hN1 hF _
      (by show (mkSlice _ _).length = _; rw [length_mkSlice]; exact W.trlwe_eq)
      (by show (mkSlice _ _).length = _; rw [length_mkSlice]; exact W.trlwe_eq)
  obtain rfl := Option.some.inj (e.symm.trans ht)
  have hB : ∀ k < P.trgswLv1.N, let x := at' (lutTable P.trgswLv1.N (2 ^ 1) fun x =>
      (newEncoder fl ((2 ^ 1 : ℕ) : ℤ)).val fl (F x)).B k; x = 0 ∨ x = 1073741824#32 ∨ x = -1073741824#32 := by
    intro k hk
    unfold lutTable
    simp only
    rw [at'_tab _ _ _ hk]
    refine ext_cases _ _ (fun x => x = 0 ∨ x = 1073741824#32 ∨ x = -1073741824#32) (fun j => ?_) (fun j => ?_) _
    · rcases val_two fl hfl (F (lutSlot P.trgswLv1.N (2 ^ 1) j)) with h | h
      · exact .inl h
      · exact .inr (.inl h)
    · rcases val_two fl hfl (F (lutSlot P.trgswLv1.N (2 ^ 1) j)) with h | h
      · exact .inl (by rw [h]; rfl)
      · exact .inr (.inr (by rw [h]))
  refine ⟨fun k => ?_, ?_⟩
  · unfold lutTable
    by_cases hk : k < P.trgswLv1.N
    · simp only
      rw [at'_tab _ _ _ hk]
    · exact List.getD_eq_default _ _ (by rw [length_tab]; omega)
  by_cases h : ∃ k < P.trgswLv1.N, at' (lutTable P.trgswLv1.N (2 ^ 1) fun x =>
      (newEncoder fl ((2 ^ 1 : ℕ) : ℤ)).val fl (F x)).B k ≠ 0
  · left
    obtain ⟨k, hk, hne⟩ := h
    refine ⟨k, hk, ?_⟩
    rcases hB k hk with h | h | h
    · exact absurd h hne
    · rw [h, show nrm (2 * 1073741824#32 + 1) = 2147483647 by decide]
      omega
    · rw [h, show nrm (2 * -1073741824#32 + 1) = 2147483647 by decide]
      omega
  · right
    intro k
    by_cases hk : k < P.trgswLv1.N
    · by_contra hne
      exact h ⟨k, hk, hne⟩
    · exact List.getD_eq_default _ _ (by unfold lutTable; rw [length_tab]; omega)

/-- Averages over the dice of a session that use only one of the masks. -/
theorem avg_session_one {P : Params} {M : ℕ} (i : Fin M)
    (f : (Fin P.tlweLv0.N → Bool) → (Fin P.trgswLv1.N → Bool) → KeyMasks P → Mask P.tlweLv0.N → ℝ) :
    avg (fun z : SessionDice P M => f z.coins0 z.coins1 z.bsk (z.masks i))
      = avg fun b0 => avg fun b1 => avg fun m => avg fun a => f b0 b1 m a := by
  rw [avg_session]
  refine congrArg avg (funext fun b0 => congrArg avg (funext fun b1 => congrArg avg (funext fun m => ?_)))
  let φ : (Fin M → Mask P.tlweLv0.N) →+ Mask P.tlweLv0.N :=
    { toFun := fun a => a i, map_zero' := rfl, map_add' := fun _ _ => rfl }
  exact avg_hom φ (fun a => ⟨fun _ => a, rfl⟩) fun a => f b0 b1 m a

theorem session_weight0 {P : Params} {M : ℕ} (i : Fin M) (h0 : 0 < P.tlweLv0.N) (W0 : ℕ) (h : P.tlweLv0.N ≤ 2 * W0) :
    uprob (fun z : SessionDice P M => W0 < weight P.tlweLv0.N (keyOf z.coins0))
      ≤ Real.exp (-(2 * (W0 + 1 - P.tlweLv0.N / 2 : ℝ) ^ 2 / P.tlweLv0.N)) := by
  refine le_trans (le_of_eq ?_) (weight_tail _ W0 h0 h)
  rw [uprob_avg, uprob_avg, avg_session_one i (fun b0 _ _ _ => if W0 < weight P.tlweLv0.N (keyOf b0) then (1 : ℝ) else 0)]
  simp only [avg_mask, avg_keyMasks, avg_coins]

theorem session_weight1 {P : Params} {M : ℕ} (i : Fin M) (h0 : 0 < P.trgswLv1.N) (W1 : ℕ) (h : P.trgswLv1.N ≤ 2 * W1) :
    uprob (fun z : SessionDice P M => W1 < weight P.trgswLv1.N (keyOf z.coins1))
      ≤ Real.exp (-(2 * (W1 + 1 - P.trgswLv1.N / 2 : ℝ) ^ 2 / P.trgswLv1.N)) := by
  refine le_trans (le_of_eq ?_) (weight_tail _ W1 h0 h)
  rw [uprob_avg, uprob_avg, avg_session_one i (fun _ b1 _ _ => if W1 < weight P.trgswLv1.N (keyOf b1) then (1 : ℝ) else 0)]
  simp only [avg_mask, avg_keyMasks, avg_coins]

/-- The mean of the lost bits is large, wherever the first move is. -/
def BiasBad (P : Params) (W1 B : ℕ) (b0 : Fin P.tlweLv0.N → Bool) (b1 : Fin P.trgswLv1.N → Bool) (a : Mask P.tlweLv0.N) : Prop :=
  weight P.trgswLv1.N (keyOf b1) ≤ W1 ∧ ∃ r < P.tlweLv0.N, (UpperHalf P (tab P.tlweLv0.N a.draw) r ∨
      LowerHalf P (tab P.tlweLv0.N a.draw) r) ∧
    (B : ℝ) ≤ |((lostBias P (tab P.tlweLv0.N a.draw) (dropKey r (keyOf b0)) (keyOf b1) : ℤ) : ℝ)|

open Classical in
theorem session_bias {P : Params} (W : WellFormed P) {M : ℕ} (i : Fin M) (lam X η : ℝ) (hl : 0 ≤ lam) (W1 : ℕ)
    (hX : lam * W1 ≤ X) (hX1 : X ≤ 1) (hη : 0 < η)
    (hs : 2 * (1 + 1 / η) * P.trgswLv1.N * (P.tlweLv0.N * (1 + 5 / 48 * X ^ 2) * lam ^ 2 / 4 / 4) < 1) (B : ℕ) :
    uprob (fun z : SessionDice P M => BiasBad P W1 B z.coins0 z.coins1 (z.masks i))
      ≤ 8 * Real.exp (-(lam * B) + lam * W1 + biasExp P.tlweLv0.N P.trgswLv1.N lam X η) := by
  rw [uprob_avg, avg_session_one i (fun b0 b1 _ a => if BiasBad P W1 B b0 b1 a then (1 : ℝ) else 0)]
  simp only [avg_keyMasks]
  refine le_trans (le_of_eq (congrArg avg (funext fun b0 => congrArg avg (funext fun b1 => congrArg avg (funext fun a => ?_)))))
    (lut_bias_tail W lam X η hl W1 hX hX1 hη hs B)
  unfold BiasBad
  congr

theorem msgCt_bias (P : Params) (fl : ℚ → ℚ) (W1 B : ℕ) (hB : 0 < B) (b0 : Fin P.tlweLv0.N → Bool) (b1 : Fin P.trgswLv1.N → Bool)
    (a : Mask P.tlweLv0.N) (msg : ℤ) (u : ℚ) (tv : Trlwe) (W : WellFormed P) (hL : P.trgswLv1.L = 3) (hb : P.trgswLv1.BGBIT = 6)
    (hok : TvOk P tv) (hw : weight P.trgswLv1.N (keyOf b1) ≤ W1)
    (h : B ≤ (lostBias P (msgCt fl 1 b0 a msg u) (dropKey (firstMove P tv (msgCt fl 1 b0 a msg u)) (keyOf b0)) (keyOf b1)).natAbs) :
    BiasBad P W1 B b0 b1 a := by
  set c := msgCt fl 1 b0 a msg u with hc
  have hat : ∀ i < P.tlweLv0.N, at' c i = at' (tab P.tlweLv0.N a.draw) i := by
    intro i hi
    rw [hc, at'_msgCt _ _ _ _ _ _ _ hi, at'_tab _ _ _ hi]
  rcases lt_or_eq_of_le (firstMove_le P tv c) with hlt | heq
  · refine ⟨hw, firstMove P tv c, hlt, ?_, ?_⟩
    · rcases before_move P tv c W hL hb hok hlt with hp | hp
      · exact .inl fun i hi => by rw [← hat i (by omega)]; exact hp i hi
      · exact .inr fun i hi => by rw [← hat i (by omega)]; exact hp i hi
    · rw [lostBias_drop_congr P (tab P.tlweLv0.N a.draw) c _ _ _ fun i _ hi => (hat i hi).symm, ← Int.cast_abs,
        ← Int.natCast_natAbs]
      exact_mod_cast h
  · rw [heq, lostBias_drop_all] at h
    simp at h
    omega

open Classical in
/-- The fluctuation of the lost bits of a look-up over the dice. -/
theorem session_fluct {P : Params} (W : WellFormed P) (L : FourierLaws O) (hd : O.deg = P.trgswLv1.N)
    (hacc0 : L.Accurate (P.trgswLv1.L * 2) 0 0) {D : ℕ} (hD : D ≤ 32)
    (hacc : L.Accurate (P.trgswLv1.L * 2) (2 ^ (P.trgswLv1.BGBIT - 1)) D) (hL : P.trgswLv1.L = 3)
    (hb : P.trgswLv1.BGBIT = 6) (R : KeyGenRand) {M : ℕ} (i : Fin M) (fl : ℚ → ℚ) (msg : ℤ) (u : ℚ) (tv : Trlwe)
    (W0 W1 : ℕ) (hv : 0 < W0 * W1) (T : ℝ) (hT0 : 0 ≤ T) (hT : T ≤ 16640 * (W0 * W1)) :
    uprob (fun z : SessionDice P M => weight P.tlweLv0.N (keyOf z.coins0) ≤ W0 ∧ weight P.trgswLv1.N (keyOf z.coins1) ≤ W1 ∧
        T + 8192 * W1 + 192 * (W0 * W1) ≤ |(lostFluctFrom P L (keyOf z.coins0) (keyOf z.coins1) R tv
          (msgCt fl 1 z.coins0 (z.masks i) msg u) (firstMove P tv (msgCt fl 1 z.coins0 (z.masks i) msg u)) z.bsk : ℝ)|)
      ≤ 2 * Real.exp (-(T ^ 2 / (8 * 8320 ^ 2 * (W0 * W1)))) + 2 * (P.tlweLv0.N * (1 / 2) ^ 2 ^ (P.trgswLv1.NBIT - 1)) := by
  have hpos : 0 ≤ 2 * Real.exp (-(T ^ 2 / (8 * 8320 ^ 2 * (W0 * W1))))
      + 2 * (P.tlweLv0.N * (1 / 2) ^ 2 ^ (P.trgswLv1.NBIT - 1)) := by positivity
  rw [uprob_avg, avg_session_one i (fun b0 b1 m a => if weight P.tlweLv0.N (keyOf b0) ≤ W0 ∧ weight P.trgswLv1.N (keyOf b1) ≤ W1 ∧
        T + 8192 * W1 + 192 * (W0 * W1) ≤ |(lostFluctFrom P L (keyOf b0) (keyOf b1) R tv
          (msgCt fl 1 b0 a msg u) (firstMove P tv (msgCt fl 1 b0 a msg u)) m : ℝ)| then (1 : ℝ) else 0)]
  refine avg_le fun b0 => avg_le fun b1 => ?_
  rw [avg_swap]
  refine avg_le fun a => ?_
  by_cases h0 : weight P.tlweLv0.N (keyOf b0) ≤ W0
  · by_cases h1 : weight P.trgswLv1.N (keyOf b1) ≤ W1
    · have key := lostFluctFrom_tail W L hd hacc0 hD hacc hL hb (keyOf b0) (keyOf b1)
        (isBinary_keyOf _) (isBinary_keyOf _) R tv (msgCt fl 1 b0 a msg u) 64 (firstMove P tv (msgCt fl 1 b0 a msg u)) (.inr rfl)
        (fun ω i hi hz hq _ => good_firstMove P L (keyOf b0) (keyOf b1) R tv (msgCt fl 1 b0 a msg u) W hd hacc0 hL hb ω i hi hz hq)
        W0 W1 h0 h1 hv T hT0 hT
      refine le_trans (le_of_eq (congrArg avg (funext fun m => ?_))) key
      have e : ((128 + 64 : ℕ) : ℝ) = 192 := by norm_num
      rw [e]
      by_cases h2 : T + 8192 * W1 + 192 * (W0 * W1) ≤ |(lostFluctFrom P L (keyOf b0) (keyOf b1) R tv
          (msgCt fl 1 b0 a msg u) (firstMove P tv (msgCt fl 1 b0 a msg u)) m : ℝ)|
      · rw [if_pos h2]; exact if_pos ⟨h0, h1, h2⟩
      · rw [if_neg h2]; exact if_neg fun h => h2 h.2.2
    · refine le_trans (avg_le (c := 0) fun m => le_of_eq (if_neg fun h => h1 h.2.1)) hpos
  · refine le_trans (avg_le (c := 0) fun m => le_of_eq (if_neg fun h => h0 h.1)) hpos

end GoTfhe
