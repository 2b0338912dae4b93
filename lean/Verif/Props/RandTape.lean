import Verif.Spec.Rand

/-!
# C92: how the functions use their generator

With a generator that hands out prepared values, each function uses the successive values, each of them once: the model
with a generator is the model with the random values as arguments, for every choice of these values.
-/

namespace GoTfhe

theorem tape_after {α : Type} (f : ℤ × ℕ → α × (ℤ × ℕ)) (hf : ∀ s, (f s).2 = (s.1, s.2 + 1)) (i : ℕ) (r : ℤ) (n : ℕ) :
    afterCalls f i (r, n) = (r, n + i) := by
  unfold afterCalls
  induction i with
  | zero => rfl
  | succ i ih => rw [Function.iterate_succ_apply', ih, hf]; rfl

theorem tape_coins (words : ℤ → ℕ → Torus) (bits : ℤ → ℕ → ℕ) (gauss : ℤ → ℕ → ℚ) (r : ℤ) (e : ℕ) :
    afterCalls (pkCoin (tapeSource words bits gauss)) e (r, 0) = (r, coinPos (bits r) e) := by
  unfold afterCalls
  induction e with
  | zero => rfl
  | succ e ih =>
    rw [Function.iterate_succ_apply', ih]
    rw [show coinPos (bits r) (e + 1) = if bits r (coinPos (bits r) e) = 1 then coinPos (bits r) e + 2
      else coinPos (bits r) e + 1 from rfl]
    unfold pkCoin
    by_cases h : bits r (coinPos (bits r) e) = 1
    · simp [tapeSource, h]
    · simp [tapeSource, h]

variable (words : ℤ → ℕ → Torus) (bits : ℤ → ℕ → ℕ) (gauss : ℤ → ℕ → ℚ)

/-- **C92**: `NewSecretKey` takes the level-0 key from the first `n` values of its generator and the level-1 key from the
following ones. -/
theorem C92_tape_key (P : Params) (r : ℤ) :
    newSecretKeyR (tapeSource words bits gauss) P r
      = newSecretKey P (bits r) (fun i => bits r (P.tlweLv0.N + i)) := by
  unfold newSecretKeyR callAt
  have h : ∀ i n, afterCalls (tapeSource words bits gauss).intn2 i (r, n) = (r, n + i) :=
    fun i n => tape_after _ (fun _ => rfl) i r n
  show newSecretKey P (fun i => ((tapeSource words bits gauss).intn2
      (afterCalls (tapeSource words bits gauss).intn2 i (r, 0))).1)
    (fun i => ((tapeSource words bits gauss).intn2 (afterCalls (tapeSource words bits gauss).intn2 i
      (afterCalls (tapeSource words bits gauss).intn2 P.tlweLv0.N (r, 0)))).1) = _
  simp only [h, Nat.zero_add]

/-- **C92**: a level-0 encryption takes its mask from the first `n` values of its generator and its noise from the next. -/
theorem C92_tape_lv0 (P : Params) (t : List Torus) (p alpha : ℚ) (key : List Torus) (r : ℤ) :
    tlwe0EncryptF64R (tapeSource words bits gauss) P t p alpha key r
      = tlwe0EncryptF64 P t p key (words r) (gauss r P.tlweLv0.N * alpha) := by
  unfold tlwe0EncryptF64R callAt
  have h : ∀ i n, afterCalls (tapeSource words bits gauss).uint32 i (r, n) = (r, n + i) :=
    fun i n => tape_after _ (fun _ => rfl) i r n
  show tlwe0EncryptF64 P t p key (fun i => ((tapeSource words bits gauss).uint32
      (afterCalls (tapeSource words bits gauss).uint32 i (r, 0))).1)
    ((tapeSource words bits gauss).gauss alpha
      (afterCalls (tapeSource words bits gauss).uint32 P.tlweLv0.N (r, 0))).1 = _
  simp only [h, Nat.zero_add]

/-- **C92**: the same at level 1. -/
theorem C92_tape_lv1 (P : Params) (t : List Torus) (p alpha : ℚ) (key : List Torus) (r : ℤ) :
    tlwe1EncryptF64R (tapeSource words bits gauss) P t p alpha key r
      = tlwe1EncryptF64 P t p key (words r) (gauss r P.tlweLv1.N * alpha) := by
  unfold tlwe1EncryptF64R callAt
  have h : ∀ i n, afterCalls (tapeSource words bits gauss).uint32 i (r, n) = (r, n + i) :=
    fun i n => tape_after _ (fun _ => rfl) i r n
  show tlwe1EncryptF64 P t p key (fun i => ((tapeSource words bits gauss).uint32
      (afterCalls (tapeSource words bits gauss).uint32 i (r, 0))).1)
    ((tapeSource words bits gauss).gauss alpha
      (afterCalls (tapeSource words bits gauss).uint32 P.tlweLv1.N (r, 0))).1 = _
  simp only [h, Nat.zero_add]

/-- **C92**: a TRLWE encryption takes its mask from the first `N` values of its generator and the noise of coefficient `i`
from value `N + i`. -/
theorem C92_tape_trlwe (P : Params) (O : FourierOps) (t : Trlwe) (p : List ℚ) (alpha : ℚ) (key : List Torus) (r : ℤ) :
    trlweEncryptF64R (tapeSource words bits gauss) P O t p alpha key r
      = trlweEncryptF64 P O t p key (words r) (fun i => gauss r (P.trlweLv1.N + i) * alpha) := by
  unfold trlweEncryptF64R callAt
  have h : ∀ i n, afterCalls (tapeSource words bits gauss).uint32 i (r, n) = (r, n + i) :=
    fun i n => tape_after _ (fun _ => rfl) i r n
  have hg : ∀ i n, afterCalls ((tapeSource words bits gauss).gauss alpha) i (r, n) = (r, n + i) :=
    fun i n => tape_after _ (fun _ => rfl) i r n
  show trlweEncryptF64 P O t p key (fun i => ((tapeSource words bits gauss).uint32
      (afterCalls (tapeSource words bits gauss).uint32 i (r, 0))).1)
    (fun i => ((tapeSource words bits gauss).gauss alpha (afterCalls ((tapeSource words bits gauss).gauss alpha) i
      (afterCalls (tapeSource words bits gauss).uint32 P.trlweLv1.N (r, 0)))).1) = _
  simp only [h, hg, Nat.zero_add]

/-- **C92**: an encryption with the public key asks for one or two values per encryption of zero, one after the other, and
takes its noise from the value after all of them. -/
theorem C92_tape_pk (P : Params) (pk : List (List Torus)) (plaintext alpha : ℚ) (r : ℤ) :
    pkEncryptF64R (tapeSource words bits gauss) P pk plaintext alpha r
      = pkEncryptF64 P pk plaintext
          ⟨fun e => decide (bits r (coinPos (bits r) e) = 1),
            fun e => decide (bits r (coinPos (bits r) e) = 1 ∧ bits r (coinPos (bits r) e + 1) = 1)⟩
          (gauss r (coinPos (bits r) pk.length) * alpha) := by
  have hc : ∀ e, callAt (pkCoin (tapeSource words bits gauss)) ((r, 0) : ℤ × ℕ) e
      = (decide (bits r (coinPos (bits r) e) = 1),
          decide (bits r (coinPos (bits r) e) = 1 ∧ bits r (coinPos (bits r) e + 1) = 1)) := by
    intro e
    unfold callAt
    rw [tape_coins]
    unfold pkCoin
    by_cases h : bits r (coinPos (bits r) e) = 1
    · simp [tapeSource, h]
    · simp [tapeSource, h]
  show pkEncryptF64 P pk plaintext
      ⟨fun e => (callAt (pkCoin (tapeSource words bits gauss)) ((r, 0) : ℤ × ℕ) e).1,
        fun e => (callAt (pkCoin (tapeSource words bits gauss)) ((r, 0) : ℤ × ℕ) e).2⟩
      ((tapeSource words bits gauss).gauss alpha
        (afterCalls (pkCoin (tapeSource words bits gauss)) pk.length ((r, 0) : ℤ × ℕ))).1 = _
  rw [tape_coins]
  simp only [hc]

/-- **C92**: `EncryptBool` encrypts `1/8` or `-1/8` in this way. -/
theorem C92_tape_pkBool (P : Params) (pk : List (List Torus)) (b : Bool) (alpha : ℚ) (r : ℤ) :
    pkEncryptBoolR (tapeSource words bits gauss) P pk b alpha r
      = pkEncryptBool P pk b
          ⟨fun e => decide (bits r (coinPos (bits r) e) = 1),
            fun e => decide (bits r (coinPos (bits r) e) = 1 ∧ bits r (coinPos (bits r) e + 1) = 1)⟩
          (gauss r (coinPos (bits r) pk.length) * alpha) := by
  unfold pkEncryptBoolR pkEncryptBool
  exact C92_tape_pk words bits gauss P pk _ alpha r

/-- **C92**: the encryptions of a cloud key use the generator of their own seed in the same way. -/
theorem C92_tape_cloudKey (P : Params) (rK : ℕ → ℕ → ℕ → ℤ) (rB : ℕ → ℕ → ℤ) :
    keyGenRandR (tapeSource words bits gauss) P rK rB
      = ⟨fun i j k => words (rK i j k), fun i j k => gauss (rK i j k) P.tlweLv0.N * kskAlpha P,
          fun i row => words (rB i row), fun i row c => gauss (rB i row) (P.trlweLv1.N + c) * bskAlpha P⟩ := by
  have h : ∀ r i n, afterCalls (tapeSource words bits gauss).uint32 i ((r, n) : ℤ × ℕ) = (r, n + i) :=
    fun r i n => tape_after _ (fun _ => rfl) i r n
  have hg : ∀ r a i n, afterCalls ((tapeSource words bits gauss).gauss a) i ((r, n) : ℤ × ℕ) = (r, n + i) :=
    fun r a i n => tape_after _ (fun _ => rfl) i r n
  have e1 : ∀ r, callAt (tapeSource words bits gauss).uint32 ((r, 0) : ℤ × ℕ) = words r := by
    intro r; funext i; unfold callAt; rw [h, Nat.zero_add]
  have e2 : ∀ r a n, callAt ((tapeSource words bits gauss).gauss a) ((r, n) : ℤ × ℕ)
      = fun c => gauss r (n + c) * a := by
    intro r a n; funext i; unfold callAt; rw [hg]
  show KeyGenRand.mk (fun i j k => callAt (tapeSource words bits gauss).uint32 ((rK i j k, 0) : ℤ × ℕ))
    (fun i j k => ((tapeSource words bits gauss).gauss (kskAlpha P)
      (afterCalls (tapeSource words bits gauss).uint32 P.tlweLv0.N ((rK i j k, 0) : ℤ × ℕ))).1)
    (fun i row => callAt (tapeSource words bits gauss).uint32 ((rB i row, 0) : ℤ × ℕ))
    (fun i row => callAt ((tapeSource words bits gauss).gauss (bskAlpha P))
      (afterCalls (tapeSource words bits gauss).uint32 P.trlweLv1.N ((rB i row, 0) : ℤ × ℕ))) = _
  simp only [e1, e2, h, Nat.zero_add]

/-- **C92**: and so do the encryptions of an asymmetric re-encryption key. -/
theorem C92_tape_reenc (P : Params) (keyFrom : List Torus) (pkTo : List (List Torus)) (alpha : ℚ) (basebit t : ℕ)
    (r : ℕ → ℕ → ℕ → ℤ) (undef : ℕ → ℕ → ℕ → ℚ) :
    newReencKeyAsymR (tapeSource words bits gauss) P keyFrom pkTo alpha basebit t r undef
      = newReencKeyAsym P keyFrom pkTo basebit t
          (fun i j k => ⟨fun e => decide (bits (r i j k) (coinPos (bits (r i j k)) e) = 1),
            fun e => decide (bits (r i j k) (coinPos (bits (r i j k)) e) = 1
              ∧ bits (r i j k) (coinPos (bits (r i j k)) e + 1) = 1)⟩)
          (fun i j k => gauss (r i j k) (coinPos (bits (r i j k)) pkTo.length) * alpha) undef := by
  have hc : ∀ r e, callAt (pkCoin (tapeSource words bits gauss)) ((r, 0) : ℤ × ℕ) e
      = (decide (bits r (coinPos (bits r) e) = 1),
          decide (bits r (coinPos (bits r) e) = 1 ∧ bits r (coinPos (bits r) e + 1) = 1)) := by
    intro r e
    unfold callAt
    rw [tape_coins]
    unfold pkCoin
    by_cases h : bits r (coinPos (bits r) e) = 1
    · simp [tapeSource, h]
    · simp [tapeSource, h]
  show newReencKeyAsym P keyFrom pkTo basebit t
    (fun i j k => ⟨fun e => (callAt (pkCoin (tapeSource words bits gauss)) ((r i j k, 0) : ℤ × ℕ) e).1,
      fun e => (callAt (pkCoin (tapeSource words bits gauss)) ((r i j k, 0) : ℤ × ℕ) e).2⟩)
    (fun i j k => ((tapeSource words bits gauss).gauss alpha
      (afterCalls (pkCoin (tapeSource words bits gauss)) pkTo.length ((r i j k, 0) : ℤ × ℕ))).1) undef = _
  have hn : (fun i j k => ((tapeSource words bits gauss).gauss alpha
      (afterCalls (pkCoin (tapeSource words bits gauss)) pkTo.length ((r i j k, 0) : ℤ × ℕ))).1)
      = fun i j k => gauss (r i j k) (coinPos (bits (r i j k)) pkTo.length) * alpha := by
    funext i j k
    rw [tape_coins]
  rw [hn]
  simp only [hc]

/-- The coins of a public key with three encryptions, when the generator gives 1, 1, 0, 1, 0: added, skipped, subtracted;
the noise is value number 5. -/
example : coinPos (fun n => [1, 1, 0, 1, 0].getD n 0) 3 = 5 ∧
    (List.range 3).map (coinPos (fun n => [1, 1, 0, 1, 0].getD n 0)) = [0, 2, 3] := by decide

end GoTfhe
