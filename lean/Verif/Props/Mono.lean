import Verif.Model.Mono
import Verif.Lemmas.Lut
import Verif.Props.Fft

/-!
# C91: what the Fourier coefficients are, and the monomial tables
-/

namespace GoTfhe

open Complex Finset

/-- `X^d` in the ring with `X^N = -1`, for `d < 2N`: `1` at place `d`, or `-1` at place `d - N`. -/
def monomial (N d : ℕ) : List Torus := tab N fun j => if j = d then 1 else if j + N = d then -1 else 0

/-! ### The tables -/

/-- The index of place `x` before reduction: `-1` for `2N - 1` -/
def idxZ (k x : ℕ) : ℤ := 4 * (rev k x : ℤ) - 1

theorem newTwMonoIdx_eq (k : ℕ) :
    newTwMonoIdx (2 ^ (k + 1)) = some (tab (2 ^ k) fun x => idxZ k x % (2 * (2 ^ (k + 1) : ℕ))) := by
  have hh : 2 ^ (k + 1) / 2 = 2 ^ k := by rw [pow_succ]; simp
  have hp : 0 < 2 ^ k := Nat.pow_pos (by omega)
  unfold newTwMonoIdx
  rw [hh]
  have e0 : mkSlice (2 ^ k) (0 : ℤ) = tab (2 ^ k) fun _ => 0 := by
    apply List.ext_getElem <;> simp [mkSlice]
  simp only [e0, Option.bind_eq_bind]
  rw [wr_tab_update _ _ _ _ hp]
  simp only [Option.bind_some]
  let S : ℕ → List ℤ := fun i => tab (2 ^ k) fun j =>
    if j = 0 then 2 * ((2 ^ (k + 1) : ℕ) : ℤ) - 1 else if j < i then 4 * (j : ℤ) - 1 else 0
  obtain ⟨s, e, hs⟩ := forRange_inv 1 (2 ^ k) hp (tab (2 ^ k) fun j => if j = 0 then 2 * ((2 ^ (k + 1) : ℕ) : ℤ) - 1 else 0)
    (fun i idx => wr idx i (4 * (i : ℤ) - 1)) (fun i s => s = S i)
    (by
      apply tab_congr
      intro j _
      by_cases h : j = 0
      · rw [if_pos h, if_pos h]
      · rw [if_neg h, if_neg h, if_neg (by omega)])
    (by
      rintro i s h1 h2 rfl
      refine ⟨_, wr_tab_update _ _ _ _ h2, ?_⟩
      apply tab_congr
      intro j _
      split_ifs <;> first | rfl | omega | (subst_vars; rfl))
  rw [e, Option.bind_some, hs]
  simp only [S]
  rw [bitReverse_tab]
  congr 1
  apply tab_congr
  intro x _
  have hr := rev_lt k x
  have hN : (2 ^ (k + 1) : ℕ) = 2 * 2 ^ k := by rw [pow_succ]; ring
  rw [hN, idxZ]
  generalize rev k x = r at *
  generalize 2 ^ k = M at *
  by_cases h : r = 0
  · subst h
    rw [if_pos rfl]
    push_cast
    rw [show (-1 : ℤ) = (2 * (2 * (M : ℤ)) - 1) + (2 * (2 * (M : ℤ))) * (-1) by ring, Int.add_mul_emod_self_left,
      Int.emod_eq_of_lt (by omega) (by omega)]
  · rw [if_neg h, if_pos hr, Int.emod_eq_of_lt (by omega) (by omega)]

theorem newMonoTables_eq {R : Type} (A : Arith R) (k : ℕ) (hk : 3 ≤ k) :
    newMonoTables A ((2 ^ (k + 1) : ℕ) : ℤ) = some (tab (2 * 2 ^ (k + 1)) fun i => A.cexp (monoAngle A (2 ^ (k + 1)) i),
      tab (2 ^ k) fun x => idxZ k x % (2 * (2 ^ (k + 1) : ℕ))) := by
  obtain ⟨h1, h2⟩ := (valid_iff ((2 ^ (k + 1) : ℕ) : ℤ)).2 ⟨k + 1, by omega, by push_cast; rfl⟩
  unfold newMonoTables
  rw [if_neg h1, if_neg h2, Int.toNat_natCast, newTwMonoIdx_eq]
  rfl

/-! ### The evaluation points -/

/-- The `2N`-th root of unity with exponent `-z` -/
noncomputable def root (N : ℕ) (z : ℤ) : ℂ := exp (-(Real.pi * z / N : ℝ) * I)

theorem root_add_mul (N : ℕ) (hN : 0 < N) (z w : ℤ) : root N (z + 2 * N * w) = root N z := by
  unfold root
  have h : (N : ℝ) ≠ 0 := by positivity
  have e : ((-(Real.pi * ((z + 2 * N * w : ℤ) : ℝ) / N : ℝ) : ℝ) : ℂ) * I
      = ((-(Real.pi * (z : ℝ) / N : ℝ) : ℝ) : ℂ) * I + ((-w : ℤ) : ℂ) * (2 * Real.pi * I) := by
    have : -(Real.pi * ((z + 2 * N * w : ℤ) : ℝ) / N) = -(Real.pi * (z : ℝ) / N) + ((-w : ℤ) : ℝ) * (2 * Real.pi) := by
      push_cast
      field_simp
      ring
    rw [this]
    push_cast
    ring
  push_cast at e ⊢
  rw [e]
  have := Complex.exp_periodic.int_mul (-w) (-(Real.pi * (z : ℂ) / N) * I)
  push_cast at this
  exact this

theorem root_emod (N : ℕ) (hN : 0 < N) (z : ℤ) : root N (z % (2 * N)) = root N z := by
  conv_rhs => rw [← Int.emod_add_mul_ediv z (2 * N)]
  rw [root_add_mul N hN]

theorem root_mul_nat (N : ℕ) (z : ℤ) (j : ℕ) : root N (z * j) = root N z ^ j := by
  unfold root
  rw [← Complex.exp_nat_mul]
  congr 1
  push_cast
  ring

theorem root_half (N : ℕ) (hN : 0 < N) : root N N = -1 := by
  unfold root
  have h : (N : ℝ) ≠ 0 := by positivity
  rw [show Real.pi * (((N : ℕ) : ℤ) : ℝ) / N = Real.pi by push_cast; field_simp]
  rw [neg_mul, Complex.exp_neg, Complex.exp_pi_mul_I]
  norm_num

theorem toC_mono (N i : ℕ) : toC (realArith.cexp (monoAngle realArith N i)) = root N i := by
  rw [toC_cexp, root]
  congr 1
  simp only [monoAngle, realArith]
  push_cast
  ring

theorem pt_eq_root (k x : ℕ) (hx : x < 2 ^ k) : pt k x = root (2 ^ (k + 1)) (idxZ k x) := by
  rw [← W_sq k x hx, W_eq, root, ← Complex.exp_nat_mul]
  congr 1
  unfold wAngle idxZ
  push_cast
  have h : (2 : ℂ) ^ k ≠ 0 := pow_ne_zero _ two_ne_zero
  rw [pow_succ]
  field_simp
  ring

/-! ### C91 -/

/-- **C91 (values).** For every degree the constructor accepts: the monomial tables have `2N` and `N/2` entries, the
indices are pairwise different, between `0` and `2N` and of the form `4r + 3`, and in exact arithmetic the Fourier
coefficient at place `x` of every polynomial is the sum of its coefficients times `twMono[(twMonoIdx[x]·j) mod 2N]`. -/
theorem C91_values (N : ℤ) (e : PolyEval ℝ) (he : newPolyEval realArith N = some e) :
    ∃ mono idx, newMonoTables realArith N = some (mono, idx) ∧ (mono.length : ℤ) = 2 * N ∧ 2 * (idx.length : ℤ) = N ∧
      idx.Nodup ∧ (∀ i ∈ idx, 0 ≤ i ∧ i < 2 * N ∧ i % 4 = 3) ∧
      ∀ p : List Torus, (p.length : ℤ) = N → ∃ f, toFourierPoly realArith e p = some f ∧
        ∀ x < idx.length, ∃ re im i, f[8 * (x / 4) + x % 4]? = some re ∧ f[8 * (x / 4) + x % 4 + 4]? = some im ∧
          idx[x]? = some i ∧
          (⟨re, im⟩ : ℂ) = ∑ j ∈ range p.length,
            (((at' p j).toInt : ℤ) : ℂ) * toC (mono.getD ((i * j) % (2 * N)).toNat (0, 0)) := by
  obtain ⟨k, hk, rfl, rfl⟩ := (newPolyEval_some _ N e).1 he
  have hN : (0 : ℕ) < 2 ^ (k + 1) := Nat.pow_pos (by omega)
  have hN2 : (2 ^ (k + 1) : ℕ) = 2 * 2 ^ k := by rw [pow_succ]; ring
  refine ⟨_, _, newMonoTables_eq realArith k hk, by simp, by simp [pow_succ]; ring, ?_, ?_, ?_⟩
  · rw [List.nodup_iff_injective_get]
    rintro ⟨a, ha⟩ ⟨b, hb⟩ hab
    simp only [List.get_eq_getElem, getElem_tab] at hab
    simp only [length_tab] at ha hb
    have h1 := rev_lt k a
    have h2 := rev_lt k b
    have h3 : rev k a = rev k b := by
      have := Int.emod_emod_of_dvd
      rw [hN2] at hab
      unfold idxZ at hab
      rw [Int.emod_eq_emod_iff_emod_sub_eq_zero] at hab
      obtain ⟨c, hc⟩ := Int.dvd_of_emod_eq_zero hab
      generalize rev k a = r at *
      generalize rev k b = s at *
      generalize 2 ^ k = M at *
      push_cast at hc
      have hc' : (r : ℤ) - s = M * c := by linarith
      rcases lt_trichotomy c 0 with h | h | h
      · nlinarith
      · subst h; omega
      · nlinarith
    have h4 := congrArg (rev k) h3
    rw [rev_rev k a ha, rev_rev k b hb] at h4
    exact Fin.ext h4
  · intro i hi
    obtain ⟨x, hx, rfl⟩ := List.getElem_of_mem hi
    rw [getElem_tab]
    have h1 := rev_lt k x
    rw [hN2]
    unfold idxZ
    generalize rev k x = r at *
    generalize 2 ^ k = M at *
    push_cast
    have hM : 0 < M := by omega
    refine ⟨Int.emod_nonneg _ (by omega), Int.emod_lt_of_pos _ (by omega), ?_⟩
    rw [show (2 * (2 * (M : ℤ))) = 4 * M by ring, Int.emod_emod_of_dvd _ ⟨(M : ℤ), rfl⟩]
    omega
  · intro p hp
    have hpl : p.length = 2 ^ (k + 1) := by exact_mod_cast hp
    refine ⟨fftT realArith k p, ?_, ?_⟩
    · unfold toFourierPoly
      have : newFourierPoly realArith.zero ((pev realArith k).degree : ℤ) = some (mkSlice (2 ^ (k + 1)) realArith.zero) :=
        newFourierPoly_pow k hk _
      simp only [this, Option.bind_eq_bind, Option.bind_some]
      exact toFourierPolyAssign_eq realArith k hk p _ hpl (by simp)
    · intro x hx
      rw [length_tab] at hx
      obtain ⟨B, h8, h4⟩ := pow_eq_eight k hk
      refine ⟨(specT realArith k p x).1, (specT realArith k p x).2, idxZ k x % (2 * (2 ^ (k + 1) : ℕ)), ?_, ?_, ?_, ?_⟩
      · rw [fftT, pack, getElem?_tab, if_pos (by omega), if_pos (by omega)]
        congr 3
        omega
      · rw [fftT, pack, getElem?_tab, if_pos (by omega), if_neg (by omega)]
        congr 3
        omega
      · rw [getElem?_tab, if_pos hx]
      · have h := toC_specT k p x hx
        unfold toC at h
        rw [h, hpl]
        refine sum_congr rfl fun j _ => ?_
        congr 1
        have hlt : ((idxZ k x % (2 * (2 ^ (k + 1) : ℕ)) * j) % (2 * (2 ^ (k + 1) : ℕ) : ℤ)).toNat < 2 * 2 ^ (k + 1) := by
          have := Int.emod_lt_of_pos (idxZ k x % (2 * (2 ^ (k + 1) : ℕ)) * j) (show (0 : ℤ) < 2 * (2 ^ (k + 1) : ℕ) by omega)
          have h0 := Int.emod_nonneg (idxZ k x % (2 * (2 ^ (k + 1) : ℕ)) * j) (show (2 * (2 ^ (k + 1) : ℕ) : ℤ) ≠ 0 by omega)
          omega
        rw [List.getD_eq_getElem?_getD, getElem?_tab, if_pos hlt, Option.getD_some, toC_mono, pt_eq_root k x hx,
          Int.toNat_of_nonneg (Int.emod_nonneg _ (by omega)), root_emod _ hN, root_mul_nat, root_emod _ hN]

/-- **C91 (roots of unity).** In exact arithmetic entry `j` of `twMono` is `exp(-iπj/N)`, and the Fourier coefficient at
place `x` of every polynomial is its value at `exp(-iπ·twMonoIdx[x]/N)`. -/
theorem C91_roots (N : ℕ) (e : PolyEval ℝ) (he : newPolyEval realArith N = some e) (mono : List (ℝ × ℝ)) (idx : List ℤ)
    (ht : newMonoTables realArith N = some (mono, idx)) :
    (∀ j < 2 * N, ∃ re im, mono[j]? = some (re, im) ∧ (⟨re, im⟩ : ℂ) = exp (-(Real.pi * j / N) * I)) ∧
    ∀ p : List Torus, p.length = N → ∃ f, toFourierPoly realArith e p = some f ∧
      ∀ x < N / 2, ∃ re im i, f[8 * (x / 4) + x % 4]? = some re ∧ f[8 * (x / 4) + x % 4 + 4]? = some im ∧
        idx[x]? = some i ∧
        (⟨re, im⟩ : ℂ) = ∑ j ∈ range N, (((at' p j).toInt : ℤ) : ℂ) * exp (-(Real.pi * i / N) * I) ^ j := by
  obtain ⟨mono', idx', ht', -, hl2, -, -, h⟩ := C91_values N e he
  obtain ⟨rfl, rfl⟩ := Prod.mk.inj (Option.some.inj (ht.symm.trans ht'))
  obtain ⟨k, hk, hNk, -⟩ := (newPolyEval_some _ (N : ℤ) e).1 he
  have hNk' : N = 2 ^ (k + 1) := by exact_mod_cast hNk
  have hN : 0 < N := by rw [hNk']; positivity
  have hm : ∀ j < 2 * N, ∃ w, mono[j]? = some w ∧ toC w = root N j := by
    intro j hj
    have := newMonoTables_eq realArith k hk
    rw [← hNk', ht] at this
    obtain ⟨rfl, -⟩ := Prod.mk.inj (Option.some.inj this)
    exact ⟨_, by rw [getElem?_tab, if_pos hj], toC_mono N j⟩
  have hroot : ∀ z : ℤ, root N z = exp (-(Real.pi * z / N) * I) := by
    intro z
    unfold root
    push_cast
    rfl
  refine ⟨fun j hj => ?_, fun p hp => ?_⟩
  · obtain ⟨⟨re, im⟩, h1, h2⟩ := hm j hj
    refine ⟨re, im, h1, ?_⟩
    rw [hroot] at h2
    exact_mod_cast h2
  · obtain ⟨f, hf, hv⟩ := h p (by exact_mod_cast hp)
    refine ⟨f, hf, fun x hx => ?_⟩
    obtain ⟨re, im, i, h1, h2, h3, h4⟩ := hv x (by omega)
    refine ⟨re, im, i, h1, h2, h3, ?_⟩
    rw [h4, hp]
    refine sum_congr rfl fun j _ => ?_
    have h0 := Int.emod_nonneg (i * j) (show (2 * N : ℤ) ≠ 0 by omega)
    have h1 := Int.emod_lt_of_pos (i * j) (show (0 : ℤ) < 2 * N by omega)
    obtain ⟨w, hw1, hw2⟩ := hm ((i * j) % (2 * N)).toNat (by omega)
    rw [List.getD_eq_getElem?_getD, hw1, Option.getD_some, hw2, Int.toNat_of_nonneg h0, root_emod N hN, root_mul_nat,
      hroot]

/-- **C91 (monomials).** In exact arithmetic the tables hold the transforms of the monomials: for every `d < 2N` the
Fourier coefficient of `X^d` at place `x` is `twMono[(twMonoIdx[x]·d) mod 2N]`. -/
theorem C91_monomial (N : ℕ) (e : PolyEval ℝ) (he : newPolyEval realArith N = some e) (mono : List (ℝ × ℝ)) (idx : List ℤ)
    (ht : newMonoTables realArith N = some (mono, idx)) (d : ℕ) (hd : d < 2 * N) :
    ∃ f, toFourierPoly realArith e (monomial N d) = some f ∧
      ∀ x < N / 2, ∃ re im i, f[8 * (x / 4) + x % 4]? = some re ∧ f[8 * (x / 4) + x % 4 + 4]? = some im ∧
        idx[x]? = some i ∧ mono[((i * d) % (2 * N)).toNat]? = some (re, im) := by
  obtain ⟨mono', idx', ht', hl1, hl2, -, -, h⟩ := C91_values N e he
  obtain ⟨rfl, rfl⟩ := Prod.mk.inj (Option.some.inj (ht.symm.trans ht'))
  obtain ⟨k, hk, hNk, -⟩ := (newPolyEval_some _ (N : ℤ) e).1 he
  have hNk' : N = 2 ^ (k + 1) := by exact_mod_cast hNk
  have hN : 0 < N := by rw [hNk']; positivity
  obtain ⟨f, hf, hv⟩ := h (monomial N d) (by simp [monomial])
  refine ⟨f, hf, fun x hx => ?_⟩
  obtain ⟨re, im, i, h1, h2, h3, h4⟩ := hv x (by omega)
  refine ⟨re, im, i, h1, h2, h3, ?_⟩
  have hi0 : ∀ z : ℤ, 0 ≤ z % (2 * N) ∧ z % (2 * N) < 2 * N := fun z =>
    ⟨Int.emod_nonneg _ (by omega), Int.emod_lt_of_pos _ (by omega)⟩
  -- the entries of the table
  have hmono : ∀ z : ℤ, ∃ w, mono[(z % (2 * N)).toNat]? = some w ∧ toC w = root N z := by
    intro z
    have := newMonoTables_eq realArith k hk
    rw [← hNk', ht] at this
    obtain ⟨rfl, -⟩ := Prod.mk.inj (Option.some.inj this)
    have hz := hi0 z
    refine ⟨_, by rw [getElem?_tab, if_pos (by omega)], ?_⟩
    rw [toC_mono, Int.toNat_of_nonneg hz.1, root_emod N hN]
  have hodd : ∃ r : ℤ, i = 4 * r + 3 := by
    obtain ⟨mono', idx', ht', -, -, -, hi, -⟩ := C91_values N e he
    obtain ⟨rfl, rfl⟩ := Prod.mk.inj (Option.some.inj (ht.symm.trans ht'))
    have := (hi i (List.mem_of_getElem? h3)).2.2
    exact ⟨i / 4, by omega⟩
  obtain ⟨w, hw, hw2⟩ := hmono (i * d)
  rw [hw]
  have key : (⟨re, im⟩ : ℂ) = root N (i * d) := by
    rw [h4]
    have hlen : (monomial N d).length = N := by simp [monomial]
    rw [hlen]
    have ht : ∀ j ∈ range N, (((at' (monomial N d) j).toInt : ℤ) : ℂ) * toC (mono.getD ((i * j) % (2 * N)).toNat (0, 0))
        = if j = d % N then (if d < N then 1 else -1) * root N (i * j) else 0 := by
      intro j hj
      rw [mem_range] at hj
      obtain ⟨v, hv1, hv2⟩ := hmono (i * j)
      rw [List.getD_eq_getElem?_getD, hv1, Option.getD_some, hv2, monomial, at'_tab _ _ _ hj]
      by_cases hdN : d < N
      · rw [Nat.mod_eq_of_lt hdN]
        by_cases hjd : j = d
        · rw [if_pos hjd, if_pos hjd, if_pos hdN]; simp
        · rw [if_neg hjd, if_neg hjd, if_neg (by omega)]; simp
      · have hm : d % N = d - N := by
          rw [Nat.mod_eq_sub_mod (by omega), Nat.mod_eq_of_lt (by omega)]
        rw [hm]
        by_cases hjd : j = d - N
        · rw [if_neg (by omega), if_pos (by omega), if_pos hjd, if_neg hdN, show ((-1 : Torus).toInt) = -1 by decide]
          push_cast
          rfl
        · rw [if_neg (by omega), if_neg (by omega), if_neg hjd]; simp
    rw [sum_congr rfl ht, sum_ite_eq', if_pos (mem_range.2 (Nat.mod_lt _ hN))]
    by_cases hdN : d < N
    · rw [if_pos hdN, Nat.mod_eq_of_lt hdN, one_mul]
    · have hm : d % N = d - N := by
        rw [Nat.mod_eq_sub_mod (by omega), Nat.mod_eq_of_lt (by omega)]
      rw [if_neg hdN, hm]
      obtain ⟨r, rfl⟩ := hodd
      have e1 : (4 * r + 3) * (d : ℤ) = ((4 * r + 3) * ((d - N : ℕ) : ℤ) + N) + 2 * N * (2 * r + 1) := by
        rw [Nat.cast_sub (by omega)]; ring
      rw [e1, root_add_mul N hN]
      have e2 : ∀ a b : ℤ, root N (a + b) = root N a * root N b := by
        intro a b
        unfold root
        rw [← Complex.exp_add]
        congr 1
        push_cast
        ring
      rw [e2, root_half N hN]
      ring
  congr 1
  rw [← hw2] at key
  unfold toC at key
  exact Prod.ext (congrArg Complex.re key).symm (congrArg Complex.im key).symm

/-- The hypotheses are met: degree 1024, the monomial `X^1500 = -X^476`. -/
example : ∃ e mono idx, newPolyEval realArith (1024 : ℕ) = some e ∧ newMonoTables realArith (1024 : ℕ) = some (mono, idx) ∧
    at' (monomial 1024 1500) 476 = -1 := by
  refine ⟨_, _, _, (newPolyEval_some _ _ _).2 ⟨9, by norm_num, by norm_num, rfl⟩, newMonoTables_eq realArith 9 (by norm_num), ?_⟩
  rw [monomial, at'_tab _ _ _ (by norm_num)]
  decide

end GoTfhe
