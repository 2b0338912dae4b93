import Verif.Props.Fft
import Verif.Spec.FourierProg

/-!
# C69: programs over Fourier polynomials
-/

namespace GoTfhe

open Finset

/-- The Fourier polynomial `f` holds the values of the integer polynomial `n`, whose reduction is `v`. -/
structure FRep (k : ℕ) (f : List ℝ) (n : ℕ → ℤ) (v : ℕ → Torus) : Prop where
  len : f.length = 2 ^ (k + 1)
  val : ∀ x < 2 ^ k, toC (unpack realArith.zero f x) = ∑ j ∈ range (2 ^ (k + 1)), ((n j : ℤ) : ℂ) * pt k x ^ j
  red : ∀ i < 2 ^ (k + 1), ((n i : ℤ) : Torus) = v i

theorem cast_negMulZ (N : ℕ) (a b : ℕ → ℤ) (k : ℕ) :
    ((negMulZ N a b k : ℤ) : Torus) = negMul N (fun i => (a i : Torus)) (fun i => (b i : Torus)) k := by
  rw [negMulZ, negMul, Int.cast_sum]
  apply Finset.sum_congr rfl
  intro i _
  split_ifs
  · rw [Int.cast_mul]
  · rw [Int.cast_neg, Int.cast_mul]

theorem FRep.mul_red {k : ℕ} {f g : List ℝ} {n m : ℕ → ℤ} {v w : ℕ → Torus} (hf : FRep k f n v) (hg : FRep k g m w)
    (i : ℕ) (hi : i < 2 ^ (k + 1)) :
    ((negMulZ (2 ^ (k + 1)) n m i : ℤ) : Torus) = negMul (2 ^ (k + 1)) v w i := by
  rw [cast_negMulZ]
  exact negMul_congr _ _ _ _ _ hf.red hg.red i hi

/-- A register as operand. -/
theorem opnd_reg (k : ℕ) (hk : 3 ≤ k) (B : ℕ) (h8 : 2 ^ (k + 1) = 8 * B) (regs : ℕ → List ℝ)
    (hl : ∀ r, (regs r).length = 2 ^ (k + 1)) (d a : ℕ) :
    Opnd B (unpack realArith.zero (regs d)) (fOpnd regs d a) (unpack realArith.zero (regs a)) := by
  unfold fOpnd
  split_ifs with h
  · subst h; exact Or.inl ⟨rfl, fun _ _ => rfl⟩
  · exact Or.inr (by rw [← h8, ← eq_pack realArith k hk (regs a) (hl a)])

theorem FRep.of_pack {k : ℕ} (hk : 3 ≤ k) (z : ℕ → ℝ × ℝ) (n : ℕ → ℤ) (v : ℕ → Torus)
    (hz : ∀ x < 2 ^ k, toC (z x) = ∑ j ∈ range (2 ^ (k + 1)), ((n j : ℤ) : ℂ) * pt k x ^ j)
    (hv : ∀ i < 2 ^ (k + 1), ((n i : ℤ) : Torus) = v i) : FRep k (pack (2 ^ (k + 1)) z) n v :=
  ⟨by simp, fun x hx => by rw [unpack_pack _ k hk _ x hx]; exact hz x hx, hv⟩

/-- One call. -/
theorem finstr_step (k : ℕ) (hk : 3 ≤ k) (regs : ℕ → List ℝ) (n : ℕ → ℕ → ℤ) (v : ℕ → ℕ → Torus)
    (h : ∀ r, FRep k (regs r) (n r) (v r)) (c : FInstr) (hc : c.Sized (2 ^ (k + 1))) :
    ∃ f m, c.out realArith (pev realArith k) regs = (c.dest, some f) ∧ FRep k f m (c.poly (2 ^ (k + 1)) v) := by
  obtain ⟨B, h8, h4⟩ := pow_eq_eight k hk
  have hop := opnd_reg k hk B h8 regs fun r => (h r).len
  have hfp : ∀ r, regs r = pack (8 * B) (unpack realArith.zero (regs r)) := fun r => by
    rw [← h8]; exact eq_pack realArith k hk (regs r) (h r).len
  have hn : ∀ d, Opnd B (unpack realArith.zero (regs d)) (none : Option (List ℝ)) (unpack realArith.zero (regs d)) :=
    fun d => Or.inl ⟨rfl, fun _ _ => rfl⟩
  have hs : ∀ (z : ℕ → ℝ × ℝ) a, Opnd B z (some (regs a)) (unpack realArith.zero (regs a)) :=
    fun z a => Or.inr (congrArg some (hfp a))
  have hz : mkSlice (2 ^ (k + 1)) realArith.zero =
      pack (8 * B) (unpack realArith.zero (mkSlice (2 ^ (k + 1)) realArith.zero)) := by
    rw [← h8]; exact eq_pack realArith k hk _ (by simp)
  have hnew : ∀ g : List ℝ → Option (List ℝ),
      ((newFourierPoly realArith.zero ((pev realArith k).degree : ℤ)).bind g) =
        g (mkSlice (2 ^ (k + 1)) realArith.zero) := by
    intro g
    have : newFourierPoly realArith.zero ((pev realArith k).degree : ℤ) =
        some (mkSlice (2 ^ (k + 1)) realArith.zero) := newFourierPoly_pow k hk _
    rw [this, Option.bind_some]
  cases c with
  | load d p =>
    have hp : p.length = 2 ^ (k + 1) := hc
    refine ⟨_, fun j => (at' p j).toInt,
      congrArg (Prod.mk d) (toFourierPolyAssign_eq realArith k hk p (regs d) hp (h d).len), ?_⟩
    · apply FRep.of_pack hk
      · exact toC_specT k p
      · intro i _
        rw [cast_int_eq, ofInt_toInt32]; rfl
  | add d a b =>
    have e0 := laneLoop_pack
      (fun _ => realArith.add) B
      _ _ _ _ _ (hop d a) (hop d b)
    rw [← hfp d, ← h8] at e0
    refine ⟨_, fun j => n a j + n b j, congrArg (Prod.mk d) e0, ?_⟩
    · apply FRep.of_pack hk
      · intro x hx
        have e : ∀ z w : ℝ × ℝ, toC (realArith.add z.1 w.1, realArith.add z.2 w.2) = toC z + toC w := by
          intro z w; apply Complex.ext <;> simp [toC, realArith]
        rw [e, (h a).val x hx, (h b).val x hx, ← Finset.sum_add_distrib]
        apply Finset.sum_congr rfl
        intro j _; push_cast; ring
      · intro i hi
        rw [Int.cast_add, (h a).red i hi, (h b).red i hi]; rfl
  | sub d a b =>
    have e0 := laneLoop_pack
      (fun _ => realArith.sub) B
      _ _ _ _ _ (hop d a) (hop d b)
    rw [← hfp d, ← h8] at e0
    refine ⟨_, fun j => n a j - n b j, congrArg (Prod.mk d) e0, ?_⟩
    · apply FRep.of_pack hk
      · intro x hx
        have e : ∀ z w : ℝ × ℝ, toC (realArith.sub z.1 w.1, realArith.sub z.2 w.2) = toC z - toC w := by
          intro z w; apply Complex.ext <;> simp [toC, realArith]
        rw [e, (h a).val x hx, (h b).val x hx, ← Finset.sum_sub_distrib]
        apply Finset.sum_congr rfl
        intro j _; push_cast; ring
      · intro i hi
        rw [Int.cast_sub, (h a).red i hi, (h b).red i hi]; rfl
  | mul d a b =>
    have e0 := cmplxLoop_pack
      (fun p x y _ => cmul realArith (6, 0, p) x y) B
      _ _ _ _ _ (hop d a) (hop d b)
    rw [← hfp d, ← h8] at e0
    refine ⟨_, negMulZ (2 ^ (k + 1)) (n a) (n b), congrArg (Prod.mk d) e0, ?_⟩
    · apply FRep.of_pack hk
      · intro x hx
        rw [toC_cmul, (h a).val x hx, (h b).val x hx, eval_negMulZ k x hx]
      · exact (h a).mul_red (h b)
  | mulAdd d a b =>
    have e0 := cmplxLoop_pack
      (fun p x y z => (realArith.add z.1 (cmul realArith (7, 0, p) x y).1,
        realArith.add z.2 (cmul realArith (7, 0, p) x y).2)) B
      _ _ _ _ _ (hop d a) (hop d b)
    rw [← hfp d, ← h8] at e0
    refine ⟨_, fun j => n d j + negMulZ (2 ^ (k + 1)) (n a) (n b) j, congrArg (Prod.mk d) e0, ?_⟩
    · apply FRep.of_pack hk
      · intro x hx
        have e : ∀ z w : ℝ × ℝ, toC (realArith.add z.1 w.1, realArith.add z.2 w.2) = toC z + toC w := by
          intro z w; apply Complex.ext <;> simp [toC, realArith]
        rw [e, toC_cmul, (h d).val x hx, (h a).val x hx, (h b).val x hx, eval_negMulZ k x hx, ← Finset.sum_add_distrib]
        apply Finset.sum_congr rfl
        intro j _; push_cast; ring
      · intro i hi
        rw [Int.cast_add, (h d).red i hi, (h a).mul_red (h b) i hi]; rfl
  | mulSub d a b =>
    have e0 := cmplxLoop_pack
      (fun p x y z => (realArith.sub z.1 (cmul realArith (8, 0, p) x y).1,
        realArith.sub z.2 (cmul realArith (8, 0, p) x y).2)) B
      _ _ _ _ _ (hop d a) (hop d b)
    rw [← hfp d, ← h8] at e0
    refine ⟨_, fun j => n d j - negMulZ (2 ^ (k + 1)) (n a) (n b) j, congrArg (Prod.mk d) e0, ?_⟩
    · apply FRep.of_pack hk
      · intro x hx
        have e : ∀ z w : ℝ × ℝ, toC (realArith.sub z.1 w.1, realArith.sub z.2 w.2) = toC z - toC w := by
          intro z w; apply Complex.ext <;> simp [toC, realArith]
        rw [e, toC_cmul, (h d).val x hx, (h a).val x hx, (h b).val x hx, eval_negMulZ k x hx, ← Finset.sum_sub_distrib]
        apply Finset.sum_congr rfl
        intro j _; push_cast; ring
      · intro i hi
        rw [Int.cast_sub, (h d).red i hi, (h a).mul_red (h b) i hi]; rfl
  | scale d a c =>
    have e0 := laneLoop_pack
      (fun _ x _ => realArith.mul (realArith.ofInt c) x) B
      _ _ _ _ _ (hop d a) (hn d)
    rw [← hfp d, ← h8] at e0
    refine ⟨_, fun j => c * n a j, congrArg (Prod.mk d) e0, ?_⟩
    · apply FRep.of_pack hk
      · intro x hx
        have e : ∀ z : ℝ × ℝ, toC (realArith.mul (realArith.ofInt c) z.1, realArith.mul (realArith.ofInt c) z.2)
            = (c : ℂ) * toC z := by
          intro z; apply Complex.ext <;> simp [toC, realArith]
        rw [e, (h a).val x hx, Finset.mul_sum]
        apply Finset.sum_congr rfl
        intro j _; push_cast; ring
      · intro i hi
        rw [Int.cast_mul, (h a).red i hi]; rfl
  | scaleAdd d a c =>
    have e0 := laneLoop_pack
      (fun p x old => realArith.addMul (5, 0, p) old (realArith.ofInt c) x) B
      _ _ _ _ _ (hop d a) (hn d)
    rw [← hfp d, ← h8] at e0
    refine ⟨_, fun j => n d j + c * n a j, congrArg (Prod.mk d) e0, ?_⟩
    · apply FRep.of_pack hk
      · intro x hx
        have e : ∀ (s t : Site) (z w : ℝ × ℝ), toC (realArith.addMul s w.1 (realArith.ofInt c) z.1,
            realArith.addMul t w.2 (realArith.ofInt c) z.2) = toC w + (c : ℂ) * toC z := by
          intro s t z w; apply Complex.ext <;> simp [toC, realArith]
        rw [e, (h d).val x hx, (h a).val x hx, Finset.mul_sum, ← Finset.sum_add_distrib]
        apply Finset.sum_congr rfl
        intro j _; push_cast; ring
      · intro i hi
        rw [Int.cast_add, Int.cast_mul, (h d).red i hi, (h a).red i hi]; rfl
  | copy d a =>
    refine ⟨regs a, n a, ?_, h a⟩
    simp only [FInstr.out, FInstr.dest]
    rw [copySlice_of_length _ _ (by rw [(h d).len, (h a).len])]
  | clear d =>
    refine ⟨mkSlice (2 ^ (k + 1)) realArith.zero, fun _ => 0, ?_, ?_⟩
    · simp only [FInstr.out, FInstr.dest]
      rw [List.map_const', (h d).len]; rfl
    · refine ⟨by simp, ?_, fun i _ => by simp [FInstr.poly]⟩
      intro x hx
      rw [unpack_zero _ k hk x hx]
      simp [toC, realArith]
      rfl
  | newLoad d p =>
    have hp : p.length = 2 ^ (k + 1) := hc
    refine ⟨_, fun j => (at' p j).toInt, congrArg (Prod.mk d) ((hnew _).trans
      (toFourierPolyAssign_eq realArith k hk p (mkSlice (2 ^ (k + 1)) realArith.zero) hp (by simp))), ?_⟩
    · apply FRep.of_pack hk
      · exact toC_specT k p
      · intro i _
        rw [cast_int_eq, ofInt_toInt32]; rfl
  | newAdd d a b =>
    have e0 := laneLoop_pack
      (fun _ => realArith.add) B
      _ _ _ _ _ (hs (unpack realArith.zero (mkSlice (2 ^ (k + 1)) realArith.zero)) a)
      (hs _ b)
    rw [← hz, ← h8] at e0
    refine ⟨_, fun j => n a j + n b j, congrArg (Prod.mk d) ((hnew _).trans e0), ?_⟩
    · apply FRep.of_pack hk
      · intro x hx
        have e : ∀ z w : ℝ × ℝ, toC (realArith.add z.1 w.1, realArith.add z.2 w.2) = toC z + toC w := by
          intro z w; apply Complex.ext <;> simp [toC, realArith]
        rw [e, (h a).val x hx, (h b).val x hx, ← Finset.sum_add_distrib]
        apply Finset.sum_congr rfl
        intro j _; push_cast; ring
      · intro i hi
        rw [Int.cast_add, (h a).red i hi, (h b).red i hi]; rfl
  | newSub d a b =>
    have e0 := laneLoop_pack
      (fun _ => realArith.sub) B
      _ _ _ _ _ (hs (unpack realArith.zero (mkSlice (2 ^ (k + 1)) realArith.zero)) a)
      (hs _ b)
    rw [← hz, ← h8] at e0
    refine ⟨_, fun j => n a j - n b j, congrArg (Prod.mk d) ((hnew _).trans e0), ?_⟩
    · apply FRep.of_pack hk
      · intro x hx
        have e : ∀ z w : ℝ × ℝ, toC (realArith.sub z.1 w.1, realArith.sub z.2 w.2) = toC z - toC w := by
          intro z w; apply Complex.ext <;> simp [toC, realArith]
        rw [e, (h a).val x hx, (h b).val x hx, ← Finset.sum_sub_distrib]
        apply Finset.sum_congr rfl
        intro j _; push_cast; ring
      · intro i hi
        rw [Int.cast_sub, (h a).red i hi, (h b).red i hi]; rfl
  | newMul d a b =>
    have e0 := cmplxLoop_pack
      (fun p x y _ => cmul realArith (6, 0, p) x y) B
      _ _ _ _ _ (hs (unpack realArith.zero (mkSlice (2 ^ (k + 1)) realArith.zero)) a)
      (hs _ b)
    rw [← hz, ← h8] at e0
    refine ⟨_, negMulZ (2 ^ (k + 1)) (n a) (n b), congrArg (Prod.mk d) ((hnew _).trans e0), ?_⟩
    · apply FRep.of_pack hk
      · intro x hx
        rw [toC_cmul, (h a).val x hx, (h b).val x hx, eval_negMulZ k x hx]
      · exact (h a).mul_red (h b)
  | dup d a =>
    refine ⟨regs a, n a, ?_, h a⟩
    simp only [FInstr.out, FInstr.dest, copyFourierPoly]
    rw [copySlice_of_length _ _ (by simp)]

/-- **C69.** In exact arithmetic, for every degree the constructor accepts and every program over registers of Fourier
polynomials, in place or with new results, with any sharing between operands and outputs: the program does not panic, and transforming any register
back gives the coefficients the same program computes in `(Z/2^32)[X]/(X^N+1)`. Registers start as new Fourier
polynomials. -/
theorem C69_fourier_program (N : ℤ) (e : PolyEval ℝ) (he : newPolyEval realArith N = some e) (prog : List FInstr)
    (hp : ∀ c ∈ prog, c.Sized N.toNat) (z : List ℝ) (hz : newFourierPoly realArith.zero N = some z) :
    ∃ regs, runFourier realArith e prog (fun _ => z) = some regs ∧
      ∀ (r : ℕ) (q : List Torus), (q.length : ℤ) = N →
        ∃ e', toPolyAssign realArith e (regs r) q
          = some (e', tab N.toNat (polyProgram N.toNat prog (fun _ _ => 0) r)) := by
  obtain ⟨k, hk, rfl, rfl⟩ := (newPolyEval_some _ N e).1 he
  rw [Int.toNat_natCast] at hp ⊢
  rw [newFourierPoly_pow k hk] at hz
  obtain rfl := Option.some.inj hz
  have main : ∀ (prog : List FInstr) (_ : ∀ c ∈ prog, c.Sized (2 ^ (k + 1))) (regs : ℕ → List ℝ) (n : ℕ → ℕ → ℤ)
      (v : ℕ → ℕ → Torus), (∀ r, FRep k (regs r) (n r) (v r)) →
      ∃ (regs' : ℕ → List ℝ) (n' : ℕ → ℕ → ℤ), runFourier realArith (pev realArith k) prog regs = some regs' ∧
        ∀ r, FRep k (regs' r) (n' r) (polyProgram (2 ^ (k + 1)) prog v r) := by
    intro prog
    induction prog with
    | nil => intro _ regs n v h; exact ⟨regs, n, rfl, h⟩
    | cons c cs ih =>
      intro hs regs n v h
      obtain ⟨f, m, e1, hf⟩ := finstr_step k hk regs n v h c (hs c List.mem_cons_self)
      obtain ⟨regs', n', e2, h2⟩ := ih (fun c hc => hs c (List.mem_cons_of_mem _ hc)) (Function.update regs c.dest f)
        (Function.update n c.dest m) (Function.update v c.dest (c.poly (2 ^ (k + 1)) v)) (by
          intro r
          by_cases hr : r = c.dest
          · subst hr; simp only [Function.update_self]; exact hf
          · simp only [Function.update_of_ne hr]; exact h r)
      refine ⟨regs', n', ?_, h2⟩
      simp only [runFourier, e1, Option.bind_eq_bind, Option.bind_some, e2]
  obtain ⟨regs, n, e1, h⟩ := main prog hp (fun _ => mkSlice (2 ^ (k + 1)) realArith.zero) (fun _ _ => 0) (fun _ _ => 0)
    (by
      intro r
      refine ⟨by simp, ?_, fun i _ => by simp⟩
      intro x hx
      rw [unpack_zero _ k hk x hx]
      simp [toC, realArith]
      rfl)
  refine ⟨regs, e1, fun r q hq => ?_⟩
  have := toPolyAssign_eq realArith k hk (pev realArith k).fpInv (regs r) q (by simp [pev]) (h r).len
    (by exact_mod_cast hq)
  have ht : tab (2 ^ (k + 1)) (unfoldP realArith (2 ^ k) (specQ realArith k (unpack realArith.zero (regs r))))
      = tab (2 ^ (k + 1)) (polyProgram (2 ^ (k + 1)) prog (fun _ _ => 0) r) := by
    apply tab_congr
    intro i hi
    rw [specQ_values k _ (n r) (h r).val i hi, ← cast_int_eq, (h r).red i hi]
  rw [ht] at this
  exact ⟨_, this⟩

/-- A case with sharing: `r0 := p; r1 := q; r1 := r1 - r0 * r1; r0 := r0 * r0; r0 := r0 + 3 r1`. -/
example (p q : List Torus) (hp : p.length = 16) (hq : q.length = 16) :
    let prog : List FInstr := [.load 0 p, .load 1 q, .mulSub 1 0 1, .mul 0 0 0, .scaleAdd 0 1 3]
    (∀ c ∈ prog, c.Sized (16 : ℤ).toNat) ∧
    polyProgram 16 prog (fun _ _ => 0) 0 = fun i =>
      negMul 16 (at' p) (at' p) i + ((3 : ℤ) : Torus) * (at' q i - negMul 16 (at' p) (at' q) i) := by
  refine ⟨?_, ?_⟩
  · simp [FInstr.Sized, hp, hq]
  · simp [polyProgram, FInstr.poly, FInstr.dest, Function.update]

end GoTfhe
