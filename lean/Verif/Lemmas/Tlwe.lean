import Verif.Lemmas.Torus
import Verif.Model.Bits

/-!
# Closed forms of the TLWE loops
-/

namespace GoTfhe

theorem encMaskLoop_eq (n : ℕ) (key t : List Torus) (draw : ℕ → Torus)
    (hk : n ≤ key.length) (ht : n ≤ t.length) :
    encMaskLoop n key draw t =
      some (∑ i ∈ Finset.range n, at' key i * draw i, filled n draw t) := by
  unfold encMaskLoop
  have := forRange_eq n (fun i (s : Torus × List Torus) => do
    let randU32 := draw i
    let k ← rd key i
    let p ← wr s.2 i randU32
    pure (s.1 + k * randU32, p))
    (fun k => (∑ i ∈ Finset.range k, at' key i * draw i, filled k draw t)) (by
      intro i hi
      simp only [rd_at' key i (by omega), wr_filled i draw t (by omega), Finset.sum_range_succ]
      rfl)
  simpa using this

/-- What `EncryptF64` leaves in the ciphertext, independent of its previous contents
(except beyond entry `n`). -/
theorem encF64_core (n : ℕ) (key t : List Torus) (draw : ℕ → Torus) (b : Torus)
    (hk : n ≤ key.length) (ht : n < t.length) :
    ∃ c, (encMaskLoop n key draw t).bind (fun s => wr s.2 n (s.1 + b)) = some c ∧
      c.length = t.length ∧ (∀ i < n, at' c i = draw i) ∧ phase n c key = b := by
  rw [encMaskLoop_eq n key t draw hk ht.le]
  simp only [Option.bind_some]
  rw [wr_eq _ _ _ (by rw [length_filled _ _ _ ht.le]; exact ht)]
  refine ⟨_, rfl, by simp [length_filled _ _ _ ht.le], ?_, ?_⟩
  · intro i hi
    simp only [at', List.getD_eq_getElem?_getD, List.getElem?_set, filled_getElem? _ _ _ ht.le]
    rw [if_neg (by omega), if_pos hi]; rfl
  · have h1 : ∀ i < n, at' ((filled n draw t).set n (∑ i ∈ Finset.range n, at' key i * draw i + b)) i
        = draw i := by
      intro i hi
      simp only [at', List.getD_eq_getElem?_getD, List.getElem?_set, filled_getElem? _ _ _ ht.le]
      rw [if_neg (by omega), if_pos hi]; rfl
    have h2 : at' ((filled n draw t).set n (∑ i ∈ Finset.range n, at' key i * draw i + b)) n
        = ∑ i ∈ Finset.range n, at' key i * draw i + b := by
      simp only [at', List.getD_eq_getElem?_getD, List.getElem?_set, length_filled _ _ _ ht.le]
      simp [ht]
    unfold phase
    have h3 : ∀ c : List Torus, (∀ i < n, at' c i = draw i) →
        ∑ i ∈ Finset.range n, at' c i * at' key i = ∑ i ∈ Finset.range n, at' key i * draw i := by
      intro c hc
      apply Finset.sum_congr rfl
      intro i hi
      rw [hc i (Finset.mem_range.1 hi), mul_comm]
    rw [h2, h3 _ h1]
    ring

theorem tlwe0EncryptF64_eq (P : Params) (t key : List Torus) (p : ℚ) (draw : ℕ → Torus)
    (sample : ℚ) (hk : P.tlweLv0.N ≤ key.length) (ht : P.tlweLv0.N < t.length) :
    ∃ c, tlwe0EncryptF64 P t p key draw sample = some c ∧ c.length = t.length ∧
      (∀ i < P.tlweLv0.N, at' c i = draw i) ∧
      phase P.tlweLv0.N c key = f64ToTorus p + f64ToTorus sample :=
  encF64_core P.tlweLv0.N key t draw _ hk ht

theorem tlwe1EncryptF64_eq (P : Params) (t key : List Torus) (p : ℚ) (draw : ℕ → Torus)
    (sample : ℚ) (hk : P.tlweLv1.N ≤ key.length) (ht : P.tlweLv1.N < t.length) :
    ∃ c, tlwe1EncryptF64 P t p key draw sample = some c ∧ c.length = t.length ∧
      (∀ i < P.tlweLv1.N, at' c i = draw i) ∧
      phase P.tlweLv1.N c key = f64ToTorus p + f64ToTorus sample :=
  encF64_core P.tlweLv1.N key t draw _ hk ht

theorem decInner_eq (n : ℕ) (t key : List Torus) (hk : n ≤ key.length) (ht : n ≤ t.length) :
    decInner n t key = some (∑ i ∈ Finset.range n, at' t i * at' key i) := by
  unfold decInner
  rw [forRange_sum n 0 (fun i => at' t i * at' key i)]
  · simp
  · intro i hi acc
    rw [rd_at' t i (by omega), rd_at' key i (by omega)]; rfl

theorem tlwe0DecryptBool_eq (P : Params) (t key : List Torus)
    (hk : P.tlweLv0.N ≤ key.length) (ht : P.tlweLv0.N < t.length) :
    tlwe0DecryptBool P t key = some (decide (0 ≤ (phase P.tlweLv0.N t key).toInt)) := by
  unfold tlwe0DecryptBool
  simp only [decInner_eq _ t key hk ht.le, rd_at' t _ ht]
  rfl

theorem tlwe1DecryptBool_eq (P : Params) (t key : List Torus)
    (hk : key.length = P.tlweLv1.N) (ht : P.tlweLv1.N < t.length) :
    tlwe1DecryptBool P t key = some (decide (0 ≤ (phase P.tlweLv1.N t key).toInt)) := by
  unfold tlwe1DecryptBool
  simp only [decInner_eq _ t key hk.ge ht.le, hk, rd_at' t _ ht]
  rfl

/-- Sign test on `±1/8 + e`, exactly. -/
theorem sign_margin (b : Bool) (e : Torus) :
    decide (0 ≤ ((if b then 536870912#32 else -536870912#32) + e).toInt) = b ↔
      (if b then -536870912 ≤ e.toInt ∧ e.toInt < 1610612736
        else -1610612736 ≤ e.toInt ∧ e.toInt < 536870912) := by
  have h1 := toInt_lo e
  have h2 := toInt_hi e
  cases b
  · simp only [Bool.false_eq_true, if_false]
    rw [toInt_add32]
    have : (-536870912#32 : Torus).toInt = -536870912 := by decide
    rw [this]
    obtain ⟨k, hk, hl, hh⟩ := bmod32_cases (-536870912 + e.toInt)
    rw [decide_eq_false_iff_not]
    omega
  · simp only [if_true]
    rw [toInt_add32]
    have : (536870912#32 : Torus).toInt = 536870912 := by decide
    rw [this]
    obtain ⟨k, hk, hl, hh⟩ := bmod32_cases (536870912 + e.toInt)
    rw [decide_eq_true_iff]
    omega

theorem f64ToTorus_bool (b : Bool) :
    f64ToTorus (if b then 0.125 else -0.125) = if b then 536870912#32 else -536870912#32 := by
  cases b
  · simpa using f64ToTorus_neg_eighth
  · simpa using f64ToTorus_eighth

theorem toInt_of_small_sample (s : ℚ) (h : |s| < 1 / 8) :
    -536870912 < (f64ToTorus s).toInt ∧ (f64ToTorus s).toInt < 536870912 := by
  rw [toInt_f64ToTorus_of_lt_half s (by linarith)]
  have h1 := truncQ_abs_le (s * 2 ^ 32)
  have h2 : |s * 2 ^ 32| < 536870912 := by
    rw [abs_mul, abs_of_pos (by norm_num : (0 : ℚ) < 2 ^ 32)]
    norm_num; linarith
  have h3 : |(truncQ (s * 2 ^ 32) : ℚ)| < 536870912 := lt_of_le_of_lt h1 h2
  have h4 : |truncQ (s * 2 ^ 32)| < 536870912 := by exact_mod_cast h3
  exact abs_lt.1 h4

/-! ### Linear operations -/

theorem zipLoop_eq (f : Torus → Torus → Torus) (t other result : List Torus)
    (ht : result.length ≤ t.length) (ho : result.length ≤ other.length) :
    zipLoop f t other result = some (tab result.length fun i => f (at' t i) (at' other i)) := by
  unfold zipLoop
  apply forRange_fill_full _ _ _ rfl
  intro i hi r hr
  rw [rd_at' t i (by omega), rd_at' other i (by omega)]
  rfl

theorem phase_tab (n : ℕ) (g : ℕ → Torus) (key : List Torus) :
    phase n (tab (n + 1) g) key = g n - ∑ i ∈ Finset.range n, g i * at' key i := by
  unfold phase
  rw [at'_tab _ _ _ (by omega)]
  congr 1
  apply Finset.sum_congr rfl
  intro i hi
  rw [at'_tab _ _ _ (by have := Finset.mem_range.1 hi; omega)]

end GoTfhe
