import Verif.Lemmas.FftConv
import Verif.Lemmas.Trlwe
import Verif.Spec.Fourier

/-!
# The transform of `/repo/poly` satisfies the functional laws

For every arithmetic and every valid degree `N = 2^(k+1)` the operations succeed on buffers of length `N` and
compute functions of the mathematical inputs.
-/

namespace GoTfhe

variable {R : Type} (A : Arith R)

/-- The evaluator of degree `2^(k+1)`. -/
def pev (k : ℕ) : PolyEval R :=
  ⟨2 ^ (k + 1), A.ofInt 4294967296, tab (2 ^ k - 1) (twFAll A k), tab (2 ^ k - 1) (twIAll A k),
    mkSlice (2 ^ (k + 1)) A.zero⟩

theorem valid_iff (N : ℤ) : (¬ isPowerOfTwo N = false ∧ ¬ N < minDegree) ↔ ∃ k ≥ 4, N = 2 ^ k := by
  have key := newPoly_eq_iff N (mkSlice N.toNat 0)
  constructor
  · rintro ⟨h1, h2⟩
    have : newPoly N = some (mkSlice N.toNat 0) := by
      unfold newPoly; rw [if_neg h1, if_neg h2]
    exact (key.1 this).1
  · intro h
    have := key.2 ⟨h, rfl⟩
    unfold newPoly at this
    split_ifs at this with h1 h2
    exact ⟨h1, h2⟩

theorem newFourierPoly_pow (k : ℕ) (hk : 3 ≤ k) (z : R) :
    newFourierPoly z ((2 ^ (k + 1) : ℕ) : ℤ) = some (mkSlice (2 ^ (k + 1)) z) := by
  obtain ⟨h1, h2⟩ := (valid_iff ((2 ^ (k + 1) : ℕ) : ℤ)).2 ⟨k + 1, by omega, by push_cast; rfl⟩
  unfold newFourierPoly
  rw [if_neg h1, if_neg h2, Int.toNat_natCast]

theorem newPoly_pow (k : ℕ) (hk : 3 ≤ k) :
    newPoly ((2 ^ (k + 1) : ℕ) : ℤ) = some (mkSlice (2 ^ (k + 1)) 0) := by
  rw [newPoly_eq_iff]
  exact ⟨⟨k + 1, by omega, by push_cast; rfl⟩, by rw [Int.toNat_natCast]⟩

theorem newPolyEval_eq (k : ℕ) (hk : 3 ≤ k) : newPolyEval A ((2 ^ (k + 1) : ℕ) : ℤ) = some (pev A k) := by
  obtain ⟨h1, h2⟩ := (valid_iff ((2 ^ (k + 1) : ℕ) : ℤ)).2 ⟨k + 1, by omega, by push_cast; rfl⟩
  unfold newPolyEval
  rw [if_neg h1, if_neg h2, Int.toNat_natCast, show 2 ^ (k + 1) / 2 = 2 ^ k by rw [pow_succ]; simp,
    genTwiddle_eq A k (by omega), newFourierPoly_pow k hk]
  rfl

/-- The constructor accepts exactly the powers of two from 16 on. -/
theorem newPolyEval_some (N : ℤ) (e : PolyEval R) :
    newPolyEval A N = some e ↔ ∃ k ≥ 3, N = ((2 ^ (k + 1) : ℕ) : ℤ) ∧ e = pev A k := by
  constructor
  · intro h
    have hv : ¬ isPowerOfTwo N = false ∧ ¬ N < minDegree := by
      unfold newPolyEval at h
      split_ifs at h with h1 h2
      exact ⟨h1, h2⟩
    obtain ⟨k, hk, rfl⟩ := (valid_iff N).1 hv
    obtain ⟨j, rfl⟩ : ∃ j, k = j + 1 := ⟨k - 1, by omega⟩
    refine ⟨j, by omega, by push_cast; rfl, ?_⟩
    have := newPolyEval_eq A j (by omega)
    push_cast at this
    rw [this] at h
    exact (Option.some.inj h).symm
  · rintro ⟨k, hk, rfl, rfl⟩
    exact newPolyEval_eq A k hk

theorem pow_eq_eight (k : ℕ) (hk : 3 ≤ k) : ∃ B, 2 ^ (k + 1) = 8 * B ∧ 2 ^ k = 4 * B := by
  obtain ⟨d, rfl⟩ : ∃ d, k = d + 3 := ⟨k - 3, by omega⟩
  exact ⟨2 * 2 ^ d, by ring, by ring⟩

/-- The transform of a polynomial of degree `2^(k+1)` as complex numbers -/
def specT (k : ℕ) (p : List Torus) : ℕ → R × R :=
  fftC (bfF A) k (twFAll A k) k (foldP A (2 ^ k) p)

/-- The inverse transform, division included -/
def specI (k : ℕ) (z : ℕ → R × R) (x : ℕ) : R × R :=
  cdivs A (A.ofInt ((2 ^ k : ℕ) : ℤ)) (ifftC (bfI A) k (twIAll A k) k z x)

/-- After reduction modulo `2^32` -/
def specQ (k : ℕ) (z : ℕ → R × R) (x : ℕ) : R × R :=
  (modQ A (4, 0, lane x) (A.ofInt 4294967296) (specI A k z x).1,
    modQ A (4, 0, lane x + 4) (A.ofInt 4294967296) (specI A k z x).2)

theorem eq_pack (k : ℕ) (hk : 3 ≤ k) (f : List R) (hf : f.length = 2 ^ (k + 1)) :
    f = pack (2 ^ (k + 1)) (unpack A.zero f) := by
  obtain ⟨B, h8, _⟩ := pow_eq_eight k hk
  rw [h8, pack_unpack A.zero B f (by omega)]

theorem toFourierPolyAssign_eq (k : ℕ) (hk : 3 ≤ k) (p : List Torus) (f : List R)
    (hp : p.length = 2 ^ (k + 1)) (hf : f.length = 2 ^ (k + 1)) :
    toFourierPolyAssign A (pev A k) p f = some (pack (2 ^ (k + 1)) (specT A k p)) := by
  obtain ⟨B, h8, h4⟩ := pow_eq_eight k hk
  have e := convertPolyToFourier_pack A B p (by omega) (unpack A.zero f)
  rw [← h8, ← h4, ← eq_pack A k hk f hf] at e
  unfold toFourierPolyAssign
  simp only [Option.bind_eq_bind]
  rw [e, Option.bind_some]
  exact fftInPlace_eq A k hk _ _

theorem ifft_congr {C : Type} (b : ℕ → ℕ → C → C → C → C × C) (k : ℕ) (g : ℕ → C) (z z' : ℕ → C)
    (h : ∀ p < 2 ^ k, z p = z' p) (j : ℕ) (hj : j ≤ k) : ∀ p < 2 ^ k, ifftC b k g j z p = ifftC b k g j z' p := by
  induction j with
  | zero => exact h
  | succ j ih =>
    intro p hp
    have hm : 2 ^ (k - 1 - j) * (2 * 2 ^ j) = 2 ^ k := by
      rw [← pow_succ', ← pow_add]; congr 1; omega
    rw [ifftC, ifftC]
    apply stage_congr _ (2 ^ j) _ (2 ^ (k - 1 - j)) (Nat.pow_pos (by omega))
    · rw [hm]; exact ih (by omega)
    · rw [hm]; exact hp

theorem toPolyUnsafe_eq (g : Torus → Torus → Torus) (k : ℕ) (hk : 3 ≤ k) (e : PolyEval R) (he : e.q = A.ofInt 4294967296)
    (he' : e.twInv = tab (2 ^ k - 1) (twIAll A k)) (f : List R) (p : List Torus)
    (hf : f.length = 2 ^ (k + 1)) (hp : p.length = 2 ^ (k + 1)) :
    toPolyUnsafe A g e f p = some (pack (2 ^ (k + 1)) (specQ A k (unpack A.zero f)),
      tab (2 ^ (k + 1)) fun i => g (at' p i) (unfoldP A (2 ^ k) (specQ A k (unpack A.zero f)) i)) := by
  obtain ⟨B, h8, h4⟩ := pow_eq_eight k hk
  unfold toPolyUnsafe
  simp only [Option.bind_eq_bind]
  rw [he, he']
  conv_lhs => rw [eq_pack A k hk f hf]
  rw [ifftInPlace_eq A k hk, Option.bind_some, h8, floatModQ_pack, Option.bind_some,
    convertFourierToPoly_pack A g B _ p (by omega), Option.bind_some, ← h4]
  rfl

/-- Forward transform of a polynomial -/
def fftT (k : ℕ) (p : List Torus) : List R := pack (2 ^ (k + 1)) (specT A k p)

/-- Pointwise product -/
def fftMul (k : ℕ) (a b : List R) : List R :=
  pack (2 ^ (k + 1)) fun x => cmul A (6, 0, x) (unpack A.zero a x) (unpack A.zero b x)

/-- Pointwise product added to `c` -/
def fftMulAdd (k : ℕ) (a b c : List R) : List R :=
  pack (2 ^ (k + 1)) fun x =>
    (A.add (unpack A.zero c x).1 (cmul A (7, 0, x) (unpack A.zero a x) (unpack A.zero b x)).1,
      A.add (unpack A.zero c x).2 (cmul A (7, 0, x) (unpack A.zero a x) (unpack A.zero b x)).2)

/-- Transform back -/
def fftR (k : ℕ) (f : List R) : List Torus :=
  tab (2 ^ (k + 1)) (unfoldP A (2 ^ k) (specQ A k (unpack A.zero f)))

/-- The operations of the evaluator satisfy the laws, in every arithmetic. -/
def fftLaws (k : ℕ) (hk : 3 ≤ k) : FourierLaws (fftOps A (pev A k)) where
  ok (f : List R) := f.length = 2 ^ (k + 1)
  Z := mkSlice (2 ^ (k + 1)) A.zero
  T p := fftT A k p
  Mul (a b : List R) := fftMul A k a b
  MulAdd (a b c : List R) := fftMulAdd A k a b c
  R (f : List R) := fftR A k f
  deg_pos := Nat.pow_pos (by omega)
  newPoly_eq := newPoly_pow k hk
  newF_eq := newFourierPoly_pow k hk A.zero
  ok_Z := by simp
  clear_eq := by
    have h : ∀ f : List R, f.length = 2 ^ (k + 1) → f.map (fun _ => A.zero) = mkSlice (2 ^ (k + 1)) A.zero := by
      intro f hf
      rw [List.map_const', hf]; rfl
    exact h
  toFourier_eq := by
    intro p f hp hf
    exact toFourierPolyAssign_eq A k hk p f hp hf
  ok_T := fun p _ => by simp [fftT]
  mulInto_eq := by
    have h : ∀ a b : List R, a.length = 2 ^ (k + 1) → b.length = 2 ^ (k + 1) →
        mulFourierAssign A none (some b) a
          = some (pack (2 ^ (k + 1)) fun x => cmul A (6, 0, x) (unpack A.zero a x) (unpack A.zero b x)) := by
      intro a b ha hb
      obtain ⟨B, h8, h4⟩ := pow_eq_eight k hk
      unfold mulFourierAssign
      conv_lhs => rw [eq_pack A k hk a ha, h8]
      rw [cmplxLoop_pack _ B none (some b) _ (unpack A.zero a) (unpack A.zero b) (Or.inl ⟨rfl, fun _ _ => rfl⟩)
        (Or.inr (by rw [← h8, ← eq_pack A k hk b hb])), h8]
    exact h
  ok_Mul := fun _ _ _ _ => by simp [fftMul]
  mulAdd_eq := by
    have h : ∀ a b c : List R, a.length = 2 ^ (k + 1) → b.length = 2 ^ (k + 1) → c.length = 2 ^ (k + 1) →
        mulAddFourierAssign A (some a) (some b) c
          = some (pack (2 ^ (k + 1)) fun x =>
            (A.add (unpack A.zero c x).1 (cmul A (7, 0, x) (unpack A.zero a x) (unpack A.zero b x)).1,
              A.add (unpack A.zero c x).2 (cmul A (7, 0, x) (unpack A.zero a x) (unpack A.zero b x)).2)) := by
      intro a b c ha hb hc
      obtain ⟨B, h8, h4⟩ := pow_eq_eight k hk
      unfold mulAddFourierAssign
      conv_lhs => rw [eq_pack A k hk c hc, h8]
      rw [cmplxLoop_pack _ B (some a) (some b) _ (unpack A.zero a) (unpack A.zero b)
        (Or.inr (by rw [← h8, ← eq_pack A k hk a ha]))
        (Or.inr (by rw [← h8, ← eq_pack A k hk b hb])), h8]
    exact h
  ok_MulAdd := fun _ _ _ _ _ _ => by simp [fftMulAdd]
  toPoly_eq := by
    have h : ∀ (f : List R) (p : List Torus), f.length = 2 ^ (k + 1) → p.length = 2 ^ (k + 1) →
        ∃ f' : List R, toPolyUnsafe A (fun _ x => x) (pev A k) f p
          = some (f', tab (2 ^ (k + 1)) (unfoldP A (2 ^ k) (specQ A k (unpack A.zero f))))
          ∧ f'.length = 2 ^ (k + 1) := by
      intro f p hf hp
      exact ⟨_, toPolyUnsafe_eq A _ k hk (pev A k) rfl rfl f p hf hp, by simp⟩
    exact h
  length_R := fun _ _ => by simp [fftOps, pev, fftR]

end GoTfhe
