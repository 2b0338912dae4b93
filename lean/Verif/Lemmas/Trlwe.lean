import Verif.Lemmas.Tlwe
import Verif.Lemmas.Negacyclic
import Verif.Model.Trlwe
import Verif.Spec.Fourier

/-!
# TRLWE functions in closed form
-/

namespace GoTfhe

theorem newPoly_eq_iff (N : ℤ) (l : List Torus) :
    newPoly N = some l ↔ (∃ k ≥ 4, N = 2 ^ k) ∧ l = mkSlice N.toNat 0 := by
  have hmd : minDegree = ((2 ^ 4 : ℕ) : ℤ) := rfl
  unfold newPoly isPowerOfTwo
  by_cases h0 : N > 0
  · obtain ⟨n, rfl⟩ : ∃ n : ℕ, N = n := ⟨N.toNat, by omega⟩
    have hn : n ≠ 0 := by omega
    have := Nat.and_sub_one_eq_zero_iff_isPowerOfTwo hn
    simp only [Int.toNat_natCast, this]
    by_cases hp : n.isPowerOfTwo
    · obtain ⟨k, rfl⟩ := hp
      have hp : (2 ^ k).isPowerOfTwo := ⟨k, rfl⟩
      simp only [h0, hp, decide_true, Bool.and_self, Bool.true_eq_false, if_false]
      have h16 : ((2 ^ k : ℕ) : ℤ) < minDegree ↔ k < 4 := by
        rw [hmd, Int.ofNat_lt]
        exact Nat.pow_lt_pow_iff_right (by norm_num)
      by_cases hk : k < 4
      · rw [if_pos (h16.2 hk)]
        constructor
        · intro h; cases h
        · rintro ⟨⟨j, hj, e⟩, -⟩
          have e' : 2 ^ k = 2 ^ j := by exact_mod_cast e
          have := Nat.pow_right_injective (le_refl 2) e'
          omega
      · rw [if_neg (fun h => hk (h16.1 h)), Option.some.injEq]
        constructor
        · intro h; exact ⟨⟨k, by omega, by push_cast; rfl⟩, h.symm⟩
        · rintro ⟨-, h⟩; exact h.symm
    · simp only [hp, decide_false, Bool.and_false, if_true]
      constructor
      · intro h; cases h
      · rintro ⟨⟨j, hj, e⟩, -⟩
        exact absurd ⟨j, by exact_mod_cast e⟩ hp
  · have : decide (N > 0) = false := by simpa using h0
    simp only [this, Bool.false_and, if_true]
    constructor
    · intro h; cases h
    · rintro ⟨⟨j, hj, e⟩, -⟩
      exact absurd (by rw [e]; positivity) h0

theorem newPoly_pow2 (k : ℕ) (h : 4 ≤ k) : newPoly ((2 ^ k : ℕ) : ℤ) = some (mkSlice (2 ^ k) 0) :=
  (newPoly_eq_iff _ _).2 ⟨⟨k, h, by push_cast; rfl⟩, by rw [Int.toNat_natCast]⟩

namespace FourierLaws

variable {O : FourierOps} (L : FourierLaws O)

theorem toFourier'_eq (p : List Torus) (hp : p.length = O.deg) : O.toFourier p = some (L.T p) := by
  unfold FourierOps.toFourier
  rw [L.newF_eq]
  exact L.toFourier_eq p _ hp L.ok_Z

theorem mulPoly_eq (p0 p1 : List Torus) (h0 : p0.length = O.deg) (h1 : p1.length = O.deg) :
    O.mulPoly p0 p1 = some (L.R (L.Mul (L.T p0) (L.T p1))) := by
  unfold FourierOps.mulPoly
  rw [L.newPoly_eq, L.toFourier'_eq p0 h0, L.toFourier'_eq p1 h1]
  simp only [Option.bind_eq_bind, Option.bind_some]
  rw [L.mulInto_eq _ _ (L.ok_T _ h0) (L.ok_T _ h1)]
  obtain ⟨f', hf, -⟩ := L.toPoly_eq (L.Mul (L.T p0) (L.T p1)) (mkSlice O.deg 0)
    (L.ok_Mul _ _ (L.ok_T _ h0) (L.ok_T _ h1)) (by simp)
  simp only [Option.bind_some, hf]
  rfl

theorem length_mulPoly (p0 p1 : List Torus) (h0 : p0.length = O.deg) (h1 : p1.length = O.deg) :
    (L.R (L.Mul (L.T p0) (L.T p1))).length = O.deg :=
  L.length_R _ (L.ok_Mul _ _ (L.ok_T _ h0) (L.ok_T _ h1))

end FourierLaws

theorem addInto_eq (n : ℕ) (b x : List Torus) (hb : b.length = n) (hx : n ≤ x.length) :
    addInto n b x = some (tab n fun i => at' b i + at' x i) := by
  unfold addInto
  rw [forRange_fill n b (fun i => at' b i + at' x i) hb.ge, filled_full' _ _ _ hb]
  intro i hi
  have : rd (filled i (fun i => at' b i + at' x i) b) i = some (at' b i) := by
    have := filled_getElem? i (fun i => at' b i + at' x i) b (by omega) i
    rw [if_neg (lt_irrefl i)] at this
    unfold rd
    rw [this, ← rd_at' b i (by omega)]; rfl
  rw [this, rd_at' x i (by omega)]; rfl

theorem length_gaussianF64Vec (p : List ℚ) (s : ℕ → ℚ) : (gaussianF64Vec p s).length = p.length := by
  simp [gaussianF64Vec]

theorem at'_gaussianF64Vec (p : List ℚ) (s : ℕ → ℚ) (i : ℕ) (h : i < p.length) :
    at' (gaussianF64Vec p s) i = f64ToTorus p[i] + f64ToTorus (s i) := by
  rw [at'_of_lt _ _ (by rw [length_gaussianF64Vec]; exact h)]
  simp [gaussianF64Vec, gaussianTorus]

/-- `EncryptF64`: mask, and body `p + noise + (A*s as computed)`. -/
theorem trlweEncryptF64_eq (P : Params) {O : FourierOps} (L : FourierLaws O) (t : Trlwe) (p : List ℚ)
    (key : List Torus) (draw : ℕ → Torus) (samples : ℕ → ℚ) (hd : O.deg = P.trlweLv1.N)
    (hA : t.A.length = P.trlweLv1.N) (hp : p.length = P.trlweLv1.N) (hk : key.length = P.trlweLv1.N) :
    trlweEncryptF64 P O t p key draw samples = some
      ⟨tab P.trlweLv1.N draw, tab P.trlweLv1.N fun i => at' (gaussianF64Vec p samples) i
        + at' (L.R (L.Mul (L.T (tab P.trlweLv1.N draw)) (L.T key))) i⟩ := by
  unfold trlweEncryptF64
  simp only
  rw [forRange_fill_full _ t.A draw hA _ (fun _ _ _ _ => rfl)]
  simp only [Option.bind_eq_bind, Option.bind_some]
  rw [L.mulPoly_eq _ key (by simp [hd]) (by omega)]
  simp only [Option.bind_some]
  rw [addInto_eq _ _ _ (by rw [length_gaussianF64Vec]; exact hp)
    (by rw [L.length_mulPoly _ _ (by simp [hd]) (by omega)]; omega)]
  rfl

theorem extractLoop_eq (n : ℕ) (A : List Torus) (k : ℕ) (out : List Torus) (hk : k < n)
    (hA : A.length = n) (ho : n ≤ out.length) :
    extractLoop n A k out = some (filled n (fun i => extG compl n (at' A) ((k : ℤ) - i)) out) := by
  unfold extractLoop
  apply forRange_fill _ _ _ ho
  intro i hi
  split_ifs with h
  · rw [rd_at' A _ (by omega)]
    have : ((k : ℤ) - i) = ((k - i : ℕ) : ℤ) := by omega
    rw [this, extG_of_lt _ _ _ _ (by omega)]; rfl
  · rw [rd_at' A _ (by omega)]
    have : ((k : ℤ) - i) = ((n + k - i : ℕ) : ℤ) - n := by omega
    rw [this, extG_sub_N _ compl_compl _ (by omega), extG_of_lt _ _ _ _ (by omega)]; rfl

/-- Value of the sample extraction functions. -/
def extracted (n : ℕ) (t : Trlwe) (k : ℕ) : List Torus :=
  tab (n + 1) fun i => if i < n then extG compl n (at' t.A) ((k : ℤ) - i) else at' t.B k

theorem extract_core (n : ℕ) (t : Trlwe) (k : ℕ) (out : List Torus) (hk : k < n)
    (hA : t.A.length = n) (hB : k < t.B.length) (ho : out.length = n + 1) :
    ((extractLoop n t.A k out).bind fun o => (rd t.B k).bind fun b => wr o n b)
      = some (extracted n t k) := by
  rw [extractLoop_eq n t.A k out hk hA (by omega), rd_at' t.B k hB]
  simp only [Option.bind_some]
  rw [wr_eq _ _ _ (by rw [length_filled _ _ _ (by omega)]; omega)]
  congr 1
  apply eq_tab_of
  · rw [List.length_set, length_filled _ _ _ (by omega), ho]
  · intro i hi
    rw [List.length_set, length_filled _ _ _ (by omega), ho] at hi
    have h2 : (filled n (fun i => extG compl n (at' t.A) ((k : ℤ) - i)) out).length = n + 1 := by
      rw [length_filled _ _ _ (by omega), ho]
    apply Option.some.inj
    rw [← List.getElem?_eq_getElem, List.getElem?_set, filled_getElem? _ _ _ (by omega), h2]
    by_cases h : n = i
    · subst h; simp
    · rw [if_neg h, if_pos (by omega), if_pos (by omega)]

theorem sampleExtractIndexAssign_eq (P : Params) (hP : P.tlweLv1.N = P.trlweLv1.N) (t : Trlwe) (k : ℕ)
    (out : List Torus) (hk : k < P.trlweLv1.N) (hA : t.A.length = P.trlweLv1.N)
    (hB : k < t.B.length) (ho : out.length = P.trlweLv1.N + 1) :
    sampleExtractIndexAssign P t k out = some (extracted P.trlweLv1.N t k) := by
  unfold sampleExtractIndexAssign tlwe1SetB
  rw [hP]
  exact extract_core _ t k out hk hA hB ho

theorem sampleExtractIndex_eq (P : Params) (hP : P.tlweLv1.N = P.trlweLv1.N) (t : Trlwe) (k : ℕ)
    (hk : k < P.trlweLv1.N) (hA : t.A.length = P.trlweLv1.N) (hB : k < t.B.length) :
    sampleExtractIndex P t k = some (extracted P.trlweLv1.N t k) := by
  unfold sampleExtractIndex tlwe1SetB
  rw [hP]
  exact extract_core _ t k _ hk hA hB (by simp [newTLWELv1, hP])

theorem phase_extracted (n : ℕ) (t : Trlwe) (k : ℕ) (s : List Torus) (hk : k < n) :
    phase n (extracted n t k) s
      = trPhase n t.A t.B s k + ∑ i ∈ Finset.Ico (k + 1) n, at' s i := by
  unfold extracted trPhase
  rw [phase_tab, if_neg (lt_irrefl n)]
  rw [negMul_comm n _ _ k hk]
  unfold negMul
  have e : ∀ i ∈ Finset.range n, (if i < n then extG compl n (at' t.A) ((k : ℤ) - i) else at' t.B k) * at' s i
      = (if i ≤ k then at' s i * at' t.A (k - i) else -(at' s i * at' t.A (k + n - i)))
        - if k < i then at' s i else 0 := by
    intro i hi
    have hi := Finset.mem_range.1 hi
    rw [if_pos hi]
    by_cases h : i ≤ k
    · rw [if_pos h, if_neg (by omega)]
      have : ((k : ℤ) - i) = ((k - i : ℕ) : ℤ) := by omega
      rw [this, extG_of_lt _ _ _ _ (by omega)]; ring
    · rw [if_neg h, if_pos (by omega)]
      have : ((k : ℤ) - i) = ((k + n - i : ℕ) : ℤ) - n := by omega
      rw [this, extG_sub_N _ compl_compl _ (by omega), extG_of_lt _ _ _ _ (by omega), compl_eq]; ring
  rw [Finset.sum_congr rfl e, Finset.sum_sub_distrib]
  have e2 : ∑ i ∈ Finset.range n, (if k < i then at' s i else 0) = ∑ i ∈ Finset.Ico (k + 1) n, at' s i := by
    rw [← Finset.sum_filter]
    congr 1
    ext i
    simp only [Finset.mem_filter, Finset.mem_range, Finset.mem_Ico]
    omega
  rw [e2]; ring

end GoTfhe
