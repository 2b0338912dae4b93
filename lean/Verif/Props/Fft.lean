import Verif.Lemmas.FftReal
import Verif.Lemmas.Evaluator

/-!
# Properties of the Fourier transform: C18, C19, C20, C22
-/

namespace GoTfhe

open Finset

/-! ### C18 -/

/-- **C18.** On a slice of length `2^k` bit reversal moves the element at index `i` to the index `j` whose binary
digits are those of `i` in reverse order, and doing it twice restores the slice. -/
theorem C18_bitReverse {α : Type} (k : ℕ) (data : List α) (hd : data.length = 2 ^ k) :
    ∃ r, bitReverseInPlace data = some r ∧ r.length = 2 ^ k ∧
      (∀ i j, i < 2 ^ k → j < 2 ^ k → (∀ b < k, j.testBit b = i.testBit (k - 1 - b)) → r[j]? = data[i]?) ∧
      bitReverseInPlace r = some data := by
  obtain ⟨r, h1, h2, h3⟩ := bitReverse_eq k data hd
  refine ⟨r, h1, h2, ?_, ?_⟩
  · intro i j hi hj hb
    rw [rev_unique k i j hj hb]
    exact h3 i hi
  · obtain ⟨r', h1', h2', h3'⟩ := bitReverse_eq k r h2
    rw [h1']
    congr 1
    apply List.ext_getElem?
    intro x
    by_cases hx : x < 2 ^ k
    · have := h3' (rev k x) (rev_lt k x)
      rw [rev_rev k x hx] at this
      rw [this, h3 x hx]
    · rw [List.getElem?_eq_none (by omega), List.getElem?_eq_none (by omega)]

/-- Every index has a reversed index, so the permutation is determined completely. -/
theorem C18_total (k i : ℕ) : ∃ j, j < 2 ^ k ∧ ∀ b < k, j.testBit b = i.testBit (k - 1 - b) := by
  refine ⟨rev k i, rev_lt k i, ?_⟩
  intro b hb
  rw [testBit_rev]
  simp [hb]

example : bitReverseInPlace [0, 1, 2, 3, 4, 5, 6, 7] = some [0, 4, 2, 6, 1, 5, 3, 7] := rfl

/-! ### C19 -/

theorem toPolyAssign_eq {R : Type} (A : Arith R) (k : ℕ) (hk : 3 ≤ k) (buf f : List R) (p : List Torus)
    (hb : buf.length = 2 ^ (k + 1)) (hf : f.length = 2 ^ (k + 1)) (hp : p.length = 2 ^ (k + 1)) :
    toPolyAssign A { pev A k with fpInv := buf } f p
      = some ({ pev A k with fpInv := pack (2 ^ (k + 1)) (specQ A k (unpack A.zero f)) },
        tab (2 ^ (k + 1)) (unfoldP A (2 ^ k) (specQ A k (unpack A.zero f)))) := by
  unfold toPolyAssign
  simp only
  rw [copySlice_of_length _ _ (by omega), toPolyUnsafe_eq A _ k hk { pev A k with fpInv := buf } rfl rfl f p hf hp]
  rfl

/-- **C19.** In exact arithmetic, for every degree the constructor accepts and every polynomial, transforming
forth and back returns the polynomial, whatever the output buffers held before. -/
theorem C19_round_trip (N : ℤ) (e : PolyEval ℝ) (he : newPolyEval realArith N = some e) (p : List Torus)
    (hp : (p.length : ℤ) = N) :
    ∃ f, toFourierPoly realArith e p = some f ∧
      (∀ f0 : List ℝ, (f0.length : ℤ) = N → toFourierPolyAssign realArith e p f0 = some f) ∧
      (∃ e', toPoly realArith e f = some (e', p)) ∧
      ∀ q : List Torus, (q.length : ℤ) = N →
        (∃ e', toPolyAssign realArith e f q = some (e', p)) ∧
        (∃ f', toPolyUnsafe realArith (fun _ x => x) e f q = some (f', p)) := by
  obtain ⟨k, hk, rfl, rfl⟩ := (newPolyEval_some _ N e).1 he
  have hpl : p.length = 2 ^ (k + 1) := by exact_mod_cast hp
  have hR : tab (2 ^ (k + 1)) (unfoldP realArith (2 ^ k)
      (specQ realArith k (unpack realArith.zero (pack (2 ^ (k + 1)) (specT realArith k p))))) = p := by
    symm
    apply eq_tab_of _ _ _ hpl
    intro i hi
    rw [specQ_values k _ (fun j => (at' p j).toInt) _ i (by omega)]
    · rw [ofInt_toInt32, at'_of_lt _ _ hi]
    · intro x hx
      rw [unpack_pack _ k hk _ x hx]
      exact toC_specT k p x hx
  have hlp : (pack (2 ^ (k + 1)) (specT realArith k p)).length = 2 ^ (k + 1) := by simp
  have ha : ∀ q : List Torus, q.length = 2 ^ (k + 1) →
      ∃ e', toPolyAssign realArith (pev realArith k) (pack (2 ^ (k + 1)) (specT realArith k p)) q = some (e', p) := by
    intro q hq
    have := toPolyAssign_eq realArith k hk (pev realArith k).fpInv (pack (2 ^ (k + 1)) (specT realArith k p)) q
      (by simp [pev]) hlp hq
    rw [hR] at this
    exact ⟨_, this⟩
  refine ⟨pack (2 ^ (k + 1)) (specT realArith k p), ?_, ?_, ?_, ?_⟩
  · unfold toFourierPoly
    have : newFourierPoly realArith.zero ((pev realArith k).degree : ℤ) = some (mkSlice (2 ^ (k + 1)) realArith.zero) :=
      newFourierPoly_pow k hk _
    simp only [this, Option.bind_eq_bind, Option.bind_some]
    exact toFourierPolyAssign_eq realArith k hk p _ hpl (by simp)
  · intro f0 hf0
    exact toFourierPolyAssign_eq realArith k hk p _ hpl (by exact_mod_cast hf0)
  · unfold toPoly
    have : newPoly ((pev realArith k).degree : ℤ) = some (mkSlice (2 ^ (k + 1)) 0) := newPoly_pow k hk
    simp only [this, Option.bind_eq_bind, Option.bind_some]
    exact ha _ (by simp)
  · intro q hq
    have hq' : q.length = 2 ^ (k + 1) := by exact_mod_cast hq
    refine ⟨ha q hq', ?_⟩
    have := toPolyUnsafe_eq realArith (fun _ x => x) k hk (pev realArith k) rfl rfl
      (pack (2 ^ (k + 1)) (specT realArith k p)) q hlp hq'
    simp only [hR] at this
    exact ⟨_, this⟩

/-- The hypotheses are met at every valid degree. -/
example : ∃ e, newPolyEval realArith 1024 = some e :=
  ⟨_, (newPolyEval_some _ 1024 _).2 ⟨9, by norm_num, by norm_num, rfl⟩⟩

/-! ### C20 -/

theorem mulPolyAssign_eq {R : Type} (A : Arith R) (g : Torus → Torus → Torus) (k : ℕ) (hk : 3 ≤ k)
    (p0 p1 q : List Torus) (h0 : p0.length = 2 ^ (k + 1)) (h1 : p1.length = 2 ^ (k + 1))
    (hq : q.length = 2 ^ (k + 1)) :
    mulPolyAssign A g (pev A k) p0 p1 q
      = some (tab (2 ^ (k + 1)) fun i => g (at' q i) (at' (fftR A k (fftMul A k (fftT A k p0) (fftT A k p1))) i)) := by
  have hT : ∀ p : List Torus, p.length = 2 ^ (k + 1) → toFourierPoly A (pev A k) p = some (fftT A k p) := by
    intro p hp
    unfold toFourierPoly
    have : newFourierPoly A.zero ((pev A k).degree : ℤ) = some (mkSlice (2 ^ (k + 1)) A.zero) :=
      newFourierPoly_pow k hk _
    simp only [this, Option.bind_eq_bind, Option.bind_some]
    exact toFourierPolyAssign_eq A k hk p _ hp (by simp)
  have hm : mulFourierAssign A none (some (fftT A k p1)) (fftT A k p0)
      = some (fftMul A k (fftT A k p0) (fftT A k p1)) :=
    (fftLaws A k hk).mulInto_eq _ _ ((fftLaws A k hk).ok_T p0 h0) ((fftLaws A k hk).ok_T p1 h1)
  unfold mulPolyAssign
  simp only [hT p0 h0, hT p1 h1, Option.bind_eq_bind, Option.bind_some, hm]
  rw [toPolyUnsafe_eq A g k hk (pev A k) rfl rfl _ q (by simp [fftMul]) hq]
  simp only [Option.bind_some, Option.pure_def]
  congr 1
  apply tab_congr
  intro i hi
  congr 1
  exact (at'_tab _ _ _ hi).symm

/-- Values of an accumulated product. -/
theorem real_accum_values (k : ℕ) (hk : 3 ≤ k) (l : List (List Torus × List Torus)) :
    ∀ (acc : List ℝ) (n : ℕ → ℤ), acc.length = 2 ^ (k + 1) →
      (∀ x < 2 ^ k, toC (unpack realArith.zero acc x)
        = ∑ j ∈ range (2 ^ (k + 1)), ((n j : ℤ) : ℂ) * pt k x ^ j) →
      ∀ x < 2 ^ k, toC (unpack realArith.zero (l.foldl (fun acc q => fftMulAdd realArith k (fftT realArith k q.1)
          (fftT realArith k q.2) acc) acc) x)
          = ∑ j ∈ range (2 ^ (k + 1)), ((n j + (l.map fun p => negMulZ (2 ^ (k + 1))
              (fun i => (at' p.1 i).toInt) (fun i => (at' p.2 i).toInt) j).sum : ℤ) : ℂ) * pt k x ^ j := by
  induction l with
  | nil =>
    intro acc n _ h
    simpa using h
  | cons q l ih =>
    intro acc n hacc h x hx
    rw [List.foldl_cons]
    rw [ih _ (fun j => n j + negMulZ (2 ^ (k + 1)) (fun i => (at' q.1 i).toInt)
      (fun i => (at' q.2 i).toInt) j) (by simp [fftMulAdd]) _ x hx]
    · apply Finset.sum_congr rfl
      intro j _
      congr 2
      rw [List.map_cons, List.sum_cons]
      ring
    · intro x hx
      have e : toC (unpack realArith.zero (fftMulAdd realArith k (fftT realArith k q.1) (fftT realArith k q.2) acc) x)
          = toC (unpack realArith.zero acc x) + toC (specT realArith k q.1 x) * toC (specT realArith k q.2 x) := by
        rw [fftMulAdd, fftT, fftT, unpack_pack _ k hk _ x hx, unpack_pack _ k hk _ x hx, unpack_pack _ k hk _ x hx,
          ← toC_cmul (7, 0, x)]
        apply Complex.ext <;> simp [toC, realArith]
      rw [e, h x hx, toC_specT k _ x hx, toC_specT k _ x hx, eval_negMulZ k x hx, ← Finset.sum_add_distrib]
      apply Finset.sum_congr rfl
      intro j _
      push_cast
      ring

theorem unpack_zero {R : Type} (z : R) (k : ℕ) (hk : 3 ≤ k) (x : ℕ) (hx : x < 2 ^ k) :
    unpack z (mkSlice (2 ^ (k + 1)) z) x = (z, z) := by
  have hm : mkSlice (2 ^ (k + 1)) z = pack (2 ^ (k + 1)) fun _ => (z, z) := by
    apply eq_tab_of _ _ _ (by simp)
    intro i hi
    simp [mkSlice]
  rw [hm, unpack_pack _ k hk _ x hx]

/-- In exact arithmetic the accumulated product transformed back is the sum of the negacyclic products. -/
theorem real_accum (k : ℕ) (hk : 3 ≤ k) (l : List (List Torus × List Torus)) (i : ℕ) (hi : i < 2 ^ (k + 1)) :
    at' (fftR realArith k (l.foldl (fun acc q => fftMulAdd realArith k (fftT realArith k q.1)
        (fftT realArith k q.2) acc) (mkSlice (2 ^ (k + 1)) realArith.zero))) i
      = (l.map fun p => negMul (2 ^ (k + 1)) (at' p.1) (at' p.2) i).sum := by
  have e2 := real_accum_values k hk l (mkSlice (2 ^ (k + 1)) realArith.zero) (fun _ => 0) (by simp) (by
    intro x hx
    rw [unpack_zero _ k hk x hx]
    simp [toC, realArith]
    rfl)
  rw [fftR, at'_tab _ _ _ hi, specQ_values k _ _ e2 i hi, zero_add, ← cast_int_eq]
  have hcast : ∀ l : List ℤ, ((l.sum : ℤ) : Torus) = (l.map fun z : ℤ => (z : Torus)).sum := by
    intro l
    induction l with
    | nil => simp
    | cons a l ih => simp only [List.sum_cons, Int.cast_add, List.map_cons, ih]
  rw [hcast, List.map_map]
  congr 1
  apply List.map_congr_left
  intro p _
  rw [Function.comp_apply, cast_int_eq]
  exact ofInt_negMulZ _ _ _ _

theorem real_mul (k : ℕ) (hk : 3 ≤ k) (a b : List Torus) (i : ℕ) (hi : i < 2 ^ (k + 1)) :
    at' (fftR realArith k (fftMul realArith k (fftT realArith k a) (fftT realArith k b))) i
      = negMul (2 ^ (k + 1)) (at' a) (at' b) i := by
  rw [fftR, at'_tab _ _ _ hi, specQ_values k _ (fun j => negMulZ (2 ^ (k + 1)) (fun i => (at' a i).toInt)
    (fun i => (at' b i).toInt) j) _ i hi]
  · exact ofInt_negMulZ _ _ _ _
  · intro x hx
    rw [fftMul, fftT, fftT, unpack_pack _ k hk _ x hx, unpack_pack _ k hk _ x hx, unpack_pack _ k hk _ x hx,
      toC_cmul, toC_specT k _ x hx, toC_specT k _ x hx, eval_negMulZ k x hx]

/-- **C20.** In exact arithmetic `MulPoly` computes the product in `(Z/2^32)[X]/(X^N+1)`; `MulPolyAssign`,
`MulAddPolyAssign` and `MulSubPolyAssign` store, add and subtract it. For every degree the constructor accepts and
all polynomials. -/
theorem C20_mul (N : ℤ) (e : PolyEval ℝ) (he : newPolyEval realArith N = some e) (p0 p1 q : List Torus)
    (h0 : (p0.length : ℤ) = N) (h1 : (p1.length : ℤ) = N) (hq : (q.length : ℤ) = N) :
    polyMul realArith e p0 p1 = some (tab N.toNat (negMul N.toNat (at' p0) (at' p1))) ∧
    mulPolyAssign realArith (fun _ x => x) e p0 p1 q = some (tab N.toNat (negMul N.toNat (at' p0) (at' p1))) ∧
    mulPolyAssign realArith (fun old x => old + x) e p0 p1 q
      = some (tab N.toNat fun i => at' q i + negMul N.toNat (at' p0) (at' p1) i) ∧
    mulPolyAssign realArith (fun old x => old - x) e p0 p1 q
      = some (tab N.toNat fun i => at' q i - negMul N.toNat (at' p0) (at' p1) i) := by
  obtain ⟨k, hk, rfl, rfl⟩ := (newPolyEval_some _ N e).1 he
  rw [Int.toNat_natCast]
  have h0' : p0.length = 2 ^ (k + 1) := by exact_mod_cast h0
  have h1' : p1.length = 2 ^ (k + 1) := by exact_mod_cast h1
  have hq' : q.length = 2 ^ (k + 1) := by exact_mod_cast hq
  have key : ∀ (g : Torus → Torus → Torus) (q : List Torus), q.length = 2 ^ (k + 1) →
      mulPolyAssign realArith g (pev realArith k) p0 p1 q
        = some (tab (2 ^ (k + 1)) fun i => g (at' q i) (negMul (2 ^ (k + 1)) (at' p0) (at' p1) i)) := by
    intro g q hq
    rw [mulPolyAssign_eq realArith g k hk p0 p1 q h0' h1' hq]
    congr 1
    apply tab_congr
    intro i hi
    rw [real_mul k hk p0 p1 i hi]
  refine ⟨?_, key _ q hq', key _ q hq', key _ q hq'⟩
  unfold polyMul
  have : newPoly ((pev realArith k).degree : ℤ) = some (mkSlice (2 ^ (k + 1)) 0) := newPoly_pow k hk
  simp only [this, Option.bind_eq_bind, Option.bind_some]
  exact key _ _ (by simp)

/-- **C20**: the exact transform is a lawful and exact backend, so everything proved about ciphertexts for such a
backend holds with the transform of `/repo/poly` read in exact arithmetic. -/
theorem C20_backend_exact (k : ℕ) (hk : 3 ≤ k) (cnt bnd : ℕ) :
    (fftLaws realArith k hk).Accurate cnt bnd 0 ∧ (fftLaws realArith k hk).MulAccurate bnd 0 := by
  constructor
  · intro l _ _ i hi
    have hi' : i < 2 ^ (k + 1) := hi
    have e := real_accum k hk l i hi'
    refine le_of_eq ?_
    show nrm (at' (fftR realArith k (l.foldl (fun acc q => fftMulAdd realArith k (fftT realArith k q.1)
        (fftT realArith k q.2) acc) (mkSlice (2 ^ (k + 1)) realArith.zero))) i
      - (l.map fun p => negMul (2 ^ (k + 1)) (at' p.1) (at' p.2) i).sum) = 0
    rw [e, sub_self]; rfl
  · intro a b _ _ _ i hi
    have hi' : i < 2 ^ (k + 1) := hi
    refine le_of_eq ?_
    show nrm (at' (fftR realArith k (fftMul realArith k (fftT realArith k a) (fftT realArith k b))) i
      - negMul (2 ^ (k + 1)) (at' a) (at' b) i) = 0
    rw [real_mul k hk a b i hi', sub_self]; rfl

/-! ### C22 -/

/-- The operation stays in bounds and its output has length `n`. -/
def Safe {α : Type} (n : ℕ) (o : Option (List α)) : Prop := ∃ r, o = some r ∧ r.length = n

/-- **C22.** For every degree that is a power of two from 16 on, in every arithmetic and for all contents, the
constructor, the transforms, conversions, products and pointwise operations stay inside slices of that length
(`none` would be a panic or an access outside the slice), also when operands share memory with the output
(`none` as an operand). -/
theorem C22_in_bounds {R : Type} (A : Arith R) (N : ℤ) (hN : ∃ k ≥ 4, N = 2 ^ k) :
    ∃ e, newPolyEval A N = some e ∧
      ∀ (buf f : List R) (p p1 q : List Torus) (g : Torus → Torus → Torus),
        (buf.length : ℤ) = N → (f.length : ℤ) = N → (p.length : ℤ) = N → (p1.length : ℤ) = N →
        (q.length : ℤ) = N →
        Safe N.toNat (toFourierPolyAssign A e p f) ∧
        Safe N.toNat (toFourierPoly A e p) ∧
        Safe N.toNat ((toPolyUnsafe A g e f q).map Prod.fst) ∧
        Safe N.toNat ((toPolyUnsafe A g e f q).map Prod.snd) ∧
        Safe N.toNat ((toPolyAssign A { e with fpInv := buf } f q).map fun r => r.1.fpInv) ∧
        Safe N.toNat ((toPolyAssign A { e with fpInv := buf } f q).map Prod.snd) ∧
        Safe N.toNat ((toPoly A { e with fpInv := buf } f).map Prod.snd) ∧
        Safe N.toNat (mulPolyAssign A g e p p1 q) ∧
        Safe N.toNat (polyMul A e p p1) ∧
        ∀ (c : R) (v0 v1 : Option (List R)), (∀ v ∈ v0, (v.length : ℤ) = N) → (∀ v ∈ v1, (v.length : ℤ) = N) →
          Safe N.toNat (addFourierAssign A v0 v1 f) ∧
          Safe N.toNat (subFourierAssign A v0 v1 f) ∧
          Safe N.toNat (floatMulFourierAssign A v0 c f) ∧
          Safe N.toNat (floatMulAddFourierAssign A v0 c f) ∧
          Safe N.toNat (mulFourierAssign A v0 v1 f) ∧
          Safe N.toNat (mulAddFourierAssign A v0 v1 f) ∧
          Safe N.toNat (mulSubFourierAssign A v0 v1 f) := by
  obtain ⟨k', hk', rfl⟩ := hN
  obtain ⟨k, rfl⟩ : ∃ k, k' = k + 1 := ⟨k' - 1, by omega⟩
  have hk : 3 ≤ k := by omega
  have hcast : ((2 : ℤ) ^ (k + 1)) = ((2 ^ (k + 1) : ℕ) : ℤ) := by push_cast; rfl
  rw [hcast]
  refine ⟨pev A k, newPolyEval_eq A k hk, ?_⟩
  intro buf f p p1 q g hbuf hf hp hp1 hq
  rw [Int.toNat_natCast]
  have hbuf' : buf.length = 2 ^ (k + 1) := by exact_mod_cast hbuf
  have hf' : f.length = 2 ^ (k + 1) := by exact_mod_cast hf
  have hp' : p.length = 2 ^ (k + 1) := by exact_mod_cast hp
  have hp1' : p1.length = 2 ^ (k + 1) := by exact_mod_cast hp1
  have hq' : q.length = 2 ^ (k + 1) := by exact_mod_cast hq
  have hnF : newFourierPoly A.zero ((pev A k).degree : ℤ) = some (mkSlice (2 ^ (k + 1)) A.zero) :=
    newFourierPoly_pow k hk _
  have hnP : newPoly ((pev A k).degree : ℤ) = some (mkSlice (2 ^ (k + 1)) 0) := newPoly_pow k hk
  refine ⟨?_, ?_, ?_, ?_, ?_, ?_, ?_, ?_, ?_, ?_⟩
  · exact ⟨_, toFourierPolyAssign_eq A k hk p f hp' hf', by simp⟩
  · unfold toFourierPoly
    simp only [hnF, Option.bind_eq_bind, Option.bind_some]
    exact ⟨_, toFourierPolyAssign_eq A k hk p _ hp' (by simp), by simp⟩
  · rw [toPolyUnsafe_eq A g k hk (pev A k) rfl rfl f q hf' hq']
    exact ⟨_, rfl, by simp⟩
  · rw [toPolyUnsafe_eq A g k hk (pev A k) rfl rfl f q hf' hq']
    exact ⟨_, rfl, by simp⟩
  · rw [toPolyAssign_eq A k hk buf f q hbuf' hf' hq']
    exact ⟨_, rfl, by simp⟩
  · rw [toPolyAssign_eq A k hk buf f q hbuf' hf' hq']
    exact ⟨_, rfl, by simp⟩
  · unfold toPoly
    simp only [hnP, Option.bind_eq_bind, Option.bind_some]
    rw [toPolyAssign_eq A k hk buf f _ hbuf' hf' (by simp)]
    exact ⟨_, rfl, by simp⟩
  · rw [mulPolyAssign_eq A g k hk p p1 q hp' hp1' hq']
    exact ⟨_, rfl, by simp⟩
  · unfold polyMul
    simp only [hnP, Option.bind_eq_bind, Option.bind_some]
    rw [mulPolyAssign_eq A _ k hk p p1 _ hp' hp1' (by simp)]
    exact ⟨_, rfl, by simp⟩
  · intro c v0 v1 hv0 hv1
    obtain ⟨B, h8, h4⟩ := pow_eq_eight k hk
    have hop : ∀ v : Option (List R), (∀ l ∈ v, (l.length : ℤ) = ((2 ^ (k + 1) : ℕ) : ℤ)) →
        ∃ a, Opnd B (unpack A.zero f) v a := by
      intro v hv
      cases v with
      | none => exact ⟨_, Or.inl ⟨rfl, fun _ _ => rfl⟩⟩
      | some l =>
        have hl : l.length = 2 ^ (k + 1) := by exact_mod_cast hv l rfl
        exact ⟨unpack A.zero l, Or.inr (by rw [← h8, ← eq_pack A k hk l hl])⟩
    obtain ⟨a, ha⟩ := hop v0 hv0
    obtain ⟨b, hb⟩ := hop v1 hv1
    have hn : Opnd B (unpack A.zero f) (none : Option (List R)) (unpack A.zero f) := Or.inl ⟨rfl, fun _ _ => rfl⟩
    have hfp : f = pack (8 * B) (unpack A.zero f) := by rw [← h8]; exact eq_pack A k hk f hf'
    rw [hfp, h8]
    refine ⟨⟨_, laneLoop_pack _ B v0 v1 _ a b ha hb, by simp⟩, ⟨_, laneLoop_pack _ B v0 v1 _ a b ha hb, by simp⟩,
      ⟨_, laneLoop_pack _ B v0 none _ a _ ha hn, by simp⟩, ⟨_, laneLoop_pack _ B v0 none _ a _ ha hn, by simp⟩,
      ⟨_, cmplxLoop_pack _ B v0 v1 _ a b ha hb, by simp⟩, ⟨_, cmplxLoop_pack _ B v0 v1 _ a b ha hb, by simp⟩,
      ⟨_, cmplxLoop_pack _ B v0 v1 _ a b ha hb, by simp⟩⟩

example : ∃ k ≥ 4, (16 : ℤ) = 2 ^ k := ⟨4, by norm_num, by norm_num⟩

/-- The length matters: on twelve elements the blocks of eight run past the end. -/
theorem C22_needs_blocks {R : Type} (A : Arith R) (Q : R) (x : R) :
    floatModQInPlace A (List.replicate 12 x) Q = none := by with_unfolding_all rfl

/-- A short second operand is read past its end. -/
theorem C22_needs_length {R : Type} (A : Arith R) (x : R) :
    mulFourierAssign A (some (List.replicate 16 x)) (some (List.replicate 12 x)) (List.replicate 16 x) = none := by
  with_unfolding_all rfl

end GoTfhe
