import Verif.Lemmas.Prelude
import Verif.Model.Rotate
import Verif.Spec.Negacyclic
import Mathlib.Tactic.Ring

/-! # Rotations -/

namespace GoTfhe

/-- Assignments to pairwise different entries. -/
theorem forRange_scatter {α : Type*} (lo hi : ℕ) (hle : lo ≤ hi) (l : List α) (p : ℕ → ℕ) (v : ℕ → α)
    (body : ℕ → List α → Option (List α))
    (hb : ∀ i r, lo ≤ i → i < hi → r.length = l.length → body i r = wr r (p i) (v i))
    (hp : ∀ i, lo ≤ i → i < hi → p i < l.length)
    (hinj : ∀ i j, lo ≤ i → i < hi → lo ≤ j → j < hi → p i = p j → i = j) :
    ∃ r, forRange lo hi l body = some r ∧ r.length = l.length ∧
      (∀ i, lo ≤ i → i < hi → r[p i]? = some (v i)) ∧
      (∀ j, (∀ i, lo ≤ i → i < hi → p i ≠ j) → r[j]? = l[j]?) := by
  obtain ⟨r, h1, h2, h3, h4⟩ := forRange_inv lo hi hle l body
    (fun k r => r.length = l.length ∧ (∀ i, lo ≤ i → i < k → r[p i]? = some (v i)) ∧
      (∀ j, (∀ i, lo ≤ i → i < k → p i ≠ j) → r[j]? = l[j]?))
    ⟨rfl, fun i h1 h2 => absurd h2 (by omega), fun j _ => rfl⟩ (by
      rintro k r hk1 hk2 ⟨hr1, hr2, hr3⟩
      refine ⟨r.set (p k) (v k), ?_, by simpa using hr1, ?_, ?_⟩
      · rw [hb k r hk1 hk2 hr1, wr_eq _ _ _ (by rw [hr1]; exact hp k hk1 hk2)]
      · intro i hi1 hi2
        rw [List.getElem?_set]
        by_cases e : i = k
        · subst e
          rw [if_pos rfl, if_pos (by rw [hr1]; exact hp i hk1 hk2)]
        · rw [if_neg (fun h => e (hinj k i hk1 hk2 hi1 (by omega) h).symm)]
          exact hr2 i hi1 (by omega)
      · intro j hj
        rw [List.getElem?_set, if_neg (hj k hk1 (by omega))]
        exact hr3 j fun i h1 h2 => hj i h1 (by omega))
  exact ⟨r, h1, h2, h3, h4⟩

/-! ### Antiperiodic extensions -/

theorem extG_of_lt (neg : Torus → Torus) (N : ℕ) (f : ℕ → Torus) (i : ℕ) (h : i < N) :
    extG neg N f i = f i := by
  unfold extG
  have h1 : (i : ℤ) / N = 0 := Int.ediv_eq_zero_of_lt (by omega) (by omega)
  have h2 : (i : ℤ) % N = i := Int.emod_eq_of_lt (by omega) (by omega)
  rw [h1, h2]; simp

theorem extG_add_N (neg : Torus → Torus) (hn : ∀ x, neg (neg x) = x) (N : ℕ) (hN : 0 < N)
    (f : ℕ → Torus) (z : ℤ) : extG neg N f (z + N) = neg (extG neg N f z) := by
  unfold extG
  have h1 : (z + N) / (N : ℤ) = z / N + 1 := Int.add_ediv_of_dvd_right (dvd_refl _) |>.trans (by
    rw [Int.ediv_self (by omega)])
  have h2 : (z + N) % (N : ℤ) = z % N := Int.add_emod_right _ _
  rw [h1, h2]
  by_cases h : (z / N) % 2 = 0
  · rw [if_pos h, if_neg (by omega)]
  · rw [if_neg h, if_pos (by omega), hn]

theorem extG_sub_N (neg : Torus → Torus) (hn : ∀ x, neg (neg x) = x) (N : ℕ) (hN : 0 < N)
    (f : ℕ → Torus) (z : ℤ) : extG neg N f (z - N) = neg (extG neg N f z) := by
  have := extG_add_N neg hn N hN f (z - N)
  rw [sub_add_cancel] at this
  rw [this, hn]

theorem extG_add_mul (neg : Torus → Torus) (hn : ∀ x, neg (neg x) = x) (N : ℕ) (hN : 0 < N)
    (f : ℕ → Torus) (z q : ℤ) :
    extG neg N f (z + N * q) = if q % 2 = 0 then extG neg N f z else neg (extG neg N f z) := by
  unfold extG
  have h1 : (z + N * q) / (N : ℤ) = z / N + q := Int.add_mul_ediv_left _ _ (by omega)
  have h2 : (z + N * q) % (N : ℤ) = z % N := Int.add_mul_emod_self_left _ _ _
  rw [h1, h2]
  by_cases h : (z / N) % 2 = 0 <;> by_cases h' : q % 2 = 0
  · rw [if_pos h, if_pos h', if_pos (by omega)]
  · rw [if_pos h, if_neg h', if_neg (by omega)]
  · rw [if_neg h, if_pos h', if_neg (by omega)]
  · rw [if_neg h, if_neg h', if_pos (by omega), hn]

theorem extG_add_two_mul (neg : Torus → Torus) (hn : ∀ x, neg (neg x) = x) (N : ℕ) (hN : 0 < N)
    (f : ℕ → Torus) (z q : ℤ) : extG neg N f (z + 2 * N * q) = extG neg N f z := by
  have := extG_add_mul neg hn N hN f z (2 * q)
  rw [if_pos (by omega)] at this
  rw [← this]; congr 1; ring

/-- Shifting twice. -/
theorem extG_shift (neg : Torus → Torus) (hn : ∀ x, neg (neg x) = x) (N : ℕ) (hN : 0 < N)
    (f : ℕ → Torus) (z k : ℤ) :
    extG neg N (fun i => extG neg N f (i - k)) z = extG neg N f (z - k) := by
  have hz : z = z % N + N * (z / N) := (Int.emod_add_mul_ediv z N).symm
  have h0 : 0 ≤ z % N := Int.emod_nonneg _ (by omega)
  conv_lhs => unfold extG
  simp only [Int.toNat_of_nonneg h0]
  conv_rhs => rw [hz, show z % N + N * (z / N) - k = (z % N - k) + N * (z / N) by ring,
    extG_add_mul neg hn N hN]
  rfl

theorem extG_congr (neg : Torus → Torus) (N : ℕ) (hN : 0 < N) (f g : ℕ → Torus)
    (h : ∀ i < N, f i = g i) (z : ℤ) : extG neg N f z = extG neg N g z := by
  unfold extG
  have h1 : (z % N).toNat < N := by
    have := Int.emod_nonneg z (show (N : ℤ) ≠ 0 by omega)
    have := Int.emod_lt_of_pos z (show (0 : ℤ) < N by omega)
    omega
  rw [h _ h1]

/-- Bitwise complement, the code's substitute for negation: `^0 - x`. -/
def compl (x : Torus) : Torus := BitVec.allOnes 32 - x

theorem allOnes_eq : (BitVec.allOnes 32 : Torus) = -1 := by decide

theorem compl_eq (x : Torus) : compl x = -x - 1 := by
  unfold compl; rw [allOnes_eq]; ring

theorem compl_compl (x : Torus) : compl (compl x) = x := by
  rw [compl_eq, compl_eq]; ring

/-- Closed form of `PolyMulWithXKInPlace`. -/
theorem polyMulWithXK_eq (a : List Torus) (k : ℤ) (result : List Torus) (h1 : 1 ≤ a.length)
    (h2 : a.length ≤ result.length) :
    polyMulWithXK a k result =
      some (tab a.length (fun i => extG compl a.length (at' a) (i - k)) ++ result.drop a.length) := by
  set n := a.length with hn
  have hN : 0 < n := h1
  -- reduce `k` to `[0, 2n)`
  set r := k % (2 * n) with hr
  have hr0 : 0 ≤ r := Int.emod_nonneg _ (by omega)
  have hr1 : r < 2 * n := Int.emod_lt_of_pos _ (by omega)
  have hkr : ∀ i : ℕ, extG compl n (at' a) (i - k) = extG compl n (at' a) (i - r) := by
    intro i
    have hk : k = r + 2 * n * (k / (2 * n)) := (Int.emod_add_mul_ediv k (2 * n)).symm
    rw [show (i : ℤ) - k = (i - r) + 2 * n * (-(k / (2 * n))) by
      conv_lhs => rw [hk]
      ring]
    exact extG_add_two_mul compl compl_compl n hN _ _ _
  rw [show (fun i : ℕ => extG compl n (at' a) (i - k)) = fun i : ℕ => extG compl n (at' a) (i - r) from
    funext hkr]
  -- the value of Go's `k % (2n)` followed by the sign fix
  have hmod : goMod k (2 * n) = some (Int.tmod k (2 * n)) := by
    unfold goMod; rw [if_neg (by omega)]
  have htm : (Int.tmod k (2 * n) = 0 ∧ r = 0) ∨ (Int.tmod k (2 * n) ≠ 0 ∧ r ≠ 0 ∧
      (if Int.tmod k (2 * n) < 0 then Int.tmod k (2 * n) + 2 * n else Int.tmod k (2 * n)) = r) := by
    have hd := Int.dvd_iff_tmod_eq_zero (a := (2 * n : ℤ)) (b := k)
    have hd' := Int.dvd_iff_emod_eq_zero (a := (2 * n : ℤ)) (b := k)
    by_cases hz : Int.tmod k (2 * n) = 0
    · exact Or.inl ⟨hz, hd'.1 (hd.2 hz)⟩
    · refine Or.inr ⟨hz, fun h => hz (hd.1 (hd'.2 h)), ?_⟩
      rw [Int.tmod_eq_emod]
      split_ifs with h3 h4 h4
      · exfalso; omega
      · omega
      · have : ((2 * n : ℤ).natAbs : ℤ) = 2 * n := by omega
        omega
      · exfalso
        have hlt : (k % (2 * n)) < 2 * n := hr1
        have : ((2 * n : ℤ).natAbs : ℤ) = 2 * n := by omega
        omega
  unfold polyMulWithXK
  rw [← hn]
  simp only [hmod, Option.bind_eq_bind, Option.bind_some]
  have hget : ∀ i < n, rd a i = some (at' a i) := fun i hi => rd_at' a i (by omega)
  rcases htm with ⟨hz, hrz⟩ | ⟨hz, hrz, hfix⟩
  · rw [if_pos hz]
    simp only [Option.pure_def, Option.some.injEq, copySlice]
    rw [List.take_of_length_le (by omega), ← hn]
    congr 1
    rw [hrz]
    conv_lhs => rw [← tab_at' a]
    apply tab_congr
    intro i hi
    rw [sub_zero, extG_of_lt _ _ _ _ (by omega)]
  · rw [if_neg hz]
    simp only [hfix]
    -- a common statement for both branches
    have main : ∀ (f g : Torus → Torus) (s : ℕ), s < n →
        ∃ res, ((forRange 0 (n - s) result fun i r => (rd a i).bind fun x => wr r (i + s) (f x)).bind
          fun result => forRange (n - s) n result fun i r => (rd a i).bind fun x => wr r (i + s - n) (g x))
          = some res ∧ res.length = result.length ∧
          (∀ j, s ≤ j → j < n → res[j]? = some (f (at' a (j - s)))) ∧
          (∀ j, j < s → res[j]? = some (g (at' a (j + n - s)))) ∧
          (∀ j, n ≤ j → res[j]? = result[j]?) := by
      intro f g s hs
      obtain ⟨r1, e1, l1, v1, o1⟩ := forRange_scatter 0 (n - s) (Nat.zero_le _) result (fun i => i + s)
        (fun i => f (at' a i)) (fun i r => (rd a i).bind fun x => wr r (i + s) (f x))
        (by intro i r _ hi _; simp only [hget i (by omega), Option.bind_some])
        (by intro i _ hi; omega) (by intro i j _ _ _ _ h; omega)
      obtain ⟨r2, e2, l2, v2, o2⟩ := forRange_scatter (n - s) n (by omega) r1 (fun i => i + s - n)
        (fun i => g (at' a i)) (fun i r => (rd a i).bind fun x => wr r (i + s - n) (g x))
        (by intro i r _ hi _; simp only [hget i (by omega), Option.bind_some])
        (by intro i _ hi; omega) (by intro i j _ _ _ _ h; omega)
      refine ⟨r2, ?_, by omega, ?_, ?_, ?_⟩
      · rw [e1]; exact e2
      · intro j hj1 hj2
        rw [o2 j (by intro i _ _; omega)]
        have := v1 (j - s) (Nat.zero_le _) (by omega)
        simpa [Nat.sub_add_cancel hj1] using this
      · intro j hj
        have := v2 (j + n - s) (by omega) (by omega)
        simpa [show j + n - s + s - n = j by omega] using this
      · intro j hj
        rw [o2 j (by intro i _ _; omega), o1 j (by intro i _ _; omega)]
    have fin : ∀ (f g : Torus → Torus) (s : ℕ), s < n → ∀ res : List Torus, res.length = result.length →
          (∀ j, s ≤ j → j < n → res[j]? = some (f (at' a (j - s)))) →
          (∀ j, j < s → res[j]? = some (g (at' a (j + n - s)))) →
          (∀ j, n ≤ j → res[j]? = result[j]?) →
          (∀ j, s ≤ j → j < n → f (at' a (j - s)) = extG compl n (at' a) (j - r)) →
          (∀ j, j < s → g (at' a (j + n - s)) = extG compl n (at' a) (j - r)) →
          res = tab n (fun i : ℕ => extG compl n (at' a) (i - r)) ++ result.drop n := by
      intro f g s hs res hl v1 v2 v3 w1 w2
      apply List.ext_getElem?
      intro j
      have hfil : tab n (fun i : ℕ => extG compl n (at' a) (i - r)) ++ result.drop n
          = filled n (fun i : ℕ => extG compl n (at' a) (i - r)) result := rfl
      rw [hfil, filled_getElem? _ _ _ h2]
      by_cases hj : j < n
      · rw [if_pos hj]
        by_cases hs' : s ≤ j
        · rw [v1 j hs' hj, w1 j hs' hj]
        · rw [v2 j (by omega), w2 j (by omega)]
      · rw [if_neg hj, v3 j (by omega)]
    by_cases hlt : r < n
    · rw [if_pos hlt]
      obtain ⟨s, hs⟩ := Int.eq_ofNat_of_zero_le hr0
      have hsn : s < n := by omega
      obtain ⟨res, e, l, v1, v2, v3⟩ := main (fun x => x) compl s hsn
      rw [hs]
      simp only [Int.toNat_natCast]
      have e' := e
      unfold compl at e'
      rw [e']
      congr 1
      rw [← hs]
      refine fin (fun x => x) compl s hsn res l v1 v2 v3 ?_ ?_
      · intro j h3 h4
        rw [hs, ← Nat.cast_sub h3, extG_of_lt _ _ _ _ (by omega)]
      · intro j h3
        rw [hs, show (j : ℤ) - s = ((j + n - s : ℕ) : ℤ) - n by omega,
          extG_sub_N compl compl_compl n hN, extG_of_lt _ _ _ _ (by omega)]
    · rw [if_neg hlt]
      obtain ⟨s, hs⟩ := Int.eq_ofNat_of_zero_le (show 0 ≤ r - n by omega)
      have hsn : s < n := by omega
      obtain ⟨res, e, l, v1, v2, v3⟩ := main compl (fun x => x) s hsn
      rw [hs]
      simp only [Int.toNat_natCast]
      have e' := e
      unfold compl at e'
      rw [e']
      congr 1
      refine fin compl (fun x => x) s hsn res l v1 v2 v3 ?_ ?_
      · intro j h3 h4
        rw [show (j : ℤ) - r = ((j - s : ℕ) : ℤ) - n by omega,
          extG_sub_N compl compl_compl n hN, extG_of_lt _ _ _ _ (by omega)]
      · intro j h3
        rw [show (j : ℤ) - r = ((j + n - s : ℕ) : ℤ) - n - n by omega,
          extG_sub_N compl compl_compl n hN, extG_sub_N compl compl_compl n hN, compl_compl,
          extG_of_lt _ _ _ _ (by omega)]

end GoTfhe
