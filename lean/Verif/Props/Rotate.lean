import Verif.Lemmas.Rotate
import Mathlib.Tactic.Linarith
import Mathlib.Tactic.IntervalCases

/-!
# C13 – C15: multiplication by powers of `X`
-/

namespace GoTfhe

/-- The specification `mulXk` agrees with the schoolbook product by the monomial `X^k`. -/
theorem mulXk_eq_negMul (N : ℕ) (f : ℕ → Torus) (k i : ℕ) (hk : k < N) (hi : i < N) :
    mulXk N f k i = negMul N (fun j => if j = k then 1 else 0) f i := by
  have hN : 0 < N := by omega
  have hnn : ∀ x : Torus, - -x = x := neg_neg
  unfold negMul
  rw [Finset.sum_eq_single_of_mem k (Finset.mem_range.2 hk)]
  · simp only [if_true, one_mul]
    unfold mulXk ext
    split_ifs with h
    · rw [← Nat.cast_sub h, extG_of_lt _ _ _ _ (by omega)]
    · rw [show (i : ℤ) - k = ((i + N - k : ℕ) : ℤ) - N by omega, extG_sub_N _ hnn N hN,
        extG_of_lt _ _ _ _ (by omega)]
  · intro j _ hj
    simp [hj]

/-- **C13.** For every `int` exponent `k`, `PolyMulWithXKInPlace` on distinct slices writes
`X^k * a`, one unit too low exactly at the coefficients whose sign changed, and leaves the entries of
`result` beyond `len(a)` alone. -/
theorem C13_mulXk (a : List Torus) (k : ℤ) (result : List Torus) (h1 : 1 ≤ a.length)
    (h2 : a.length ≤ result.length) :
    ∃ out, polyMulWithXK a k result = some out ∧ out.length = result.length ∧
      (∀ i < a.length, at' out i =
        mulXk a.length (at' a) k i - (if ((i - k) / (a.length : ℤ)) % 2 = 0 then 0 else 1)) ∧
      out.drop a.length = result.drop a.length := by
  refine ⟨_, polyMulWithXK_eq a k result h1 h2, ?_, ?_, ?_⟩
  · simp [length_tab]; omega
  · intro i hi
    have : at' (tab a.length (fun i => extG compl a.length (at' a) (i - k)) ++ result.drop a.length) i
        = extG compl a.length (at' a) (i - k) := by
      unfold at'
      rw [List.getD_eq_getElem?_getD, List.getElem?_append_left (by simpa [length_tab] using hi),
        getElem?_tab, if_pos hi]
      rfl
    rw [this]
    unfold mulXk ext extG
    split_ifs with h
    · simp
    · rw [compl_eq]
  · rw [List.drop_append_of_le_length (by simp [length_tab])]
    rw [List.drop_of_length_le (by simp [length_tab])]
    rfl

/-- **C13**, special case without sign change: rotating by `0` copies. -/
theorem C13_zero (a result : List Torus) (h1 : 1 ≤ a.length) (h2 : a.length = result.length) :
    polyMulWithXK a 0 result = some a := by
  rw [polyMulWithXK_eq a 0 result h1 (by omega)]
  rw [List.drop_of_length_le (by omega), List.append_nil]
  congr 1
  conv_rhs => rw [← tab_at' a]
  apply tab_congr
  intro i hi
  rw [sub_zero, extG_of_lt _ _ _ _ hi]

/-- **C13**: an empty polynomial panics (division by zero). -/
theorem C13_empty_panics (k : ℤ) (result : List Torus) : polyMulWithXK [] k result = none := by
  simp [polyMulWithXK, goMod]

example : polyMulWithXK [1#32, 2#32, 3#32] (-1) [0#32, 0#32, 0#32, 7#32]
    = some [2#32, 3#32, -2#32, 7#32] := by decide

/-- **C14.** Rotating by `j` and then by `k` is, bit for bit, rotating by `j + k`. -/
theorem C14_compose (a : List Torus) (j k : ℤ) (r1 r2 r3 : List Torus) (h1 : 1 ≤ a.length)
    (e1 : r1.length = a.length) (e2 : r2.length = a.length) (e3 : r3.length = a.length) :
    ((polyMulWithXK a j r1).bind fun b => polyMulWithXK b k r2) = polyMulWithXK a (j + k) r3 ∧
    (polyMulWithXK a (j + k) r3).isSome := by
  have d : ∀ r : List Torus, r.length = a.length → r.drop a.length = [] := fun r h =>
    List.drop_of_length_le (by omega)
  rw [polyMulWithXK_eq a j r1 h1 (by omega), polyMulWithXK_eq a (j + k) r3 h1 (by omega),
    d r1 e1, d r3 e3, List.append_nil, List.append_nil, Option.bind_some]
  refine ⟨?_, rfl⟩
  have hl := length_tab a.length (fun i => extG compl a.length (at' a) (i - j))
  rw [polyMulWithXK_eq _ k r2 (by omega) (by omega), hl, d r2 e2, List.append_nil]
  congr 1
  apply tab_congr
  intro i hi
  have hN : 0 < a.length := by omega
  rw [extG_congr compl a.length hN _ (fun i : ℕ => extG compl a.length (at' a) (i - j))
    (fun i hi => at'_tab _ _ _ hi), extG_shift compl compl_compl _ hN]
  congr 1; ring

/-- **C14.** Rotating by any multiple of `2N` is the identity. -/
theorem C14_period (a : List Torus) (q : ℤ) (r : List Torus) (h1 : 1 ≤ a.length)
    (e : r.length = a.length) : polyMulWithXK a (2 * a.length * q) r = some a := by
  rw [polyMulWithXK_eq a _ r h1 (by omega), List.drop_of_length_le (by omega), List.append_nil]
  congr 1
  conv_rhs => rw [← tab_at' a]
  apply tab_congr
  intro i hi
  rw [show (i : ℤ) - 2 * a.length * q = i + 2 * a.length * (-q) by ring,
    extG_add_two_mul compl compl_compl _ (by omega), extG_of_lt _ _ _ _ hi]

/-- **C14.** The exponent only matters modulo `2N`. -/
theorem C14_mod (a : List Torus) (j k : ℤ) (r : List Torus) (h1 : 1 ≤ a.length)
    (e : a.length ≤ r.length) (h : (2 * a.length : ℤ) ∣ j - k) :
    polyMulWithXK a j r = polyMulWithXK a k r := by
  rw [polyMulWithXK_eq a _ r h1 e, polyMulWithXK_eq a _ r h1 e]
  congr 2
  apply tab_congr
  intro i _
  obtain ⟨q, hq⟩ := h
  rw [show (i : ℤ) - j = i - k + 2 * a.length * (-q) by linarith,
    extG_add_two_mul compl compl_compl _ (by omega)]

example : (1 : ℕ) ≤ [5#32, 6#32].length ∧ polyMulWithXK [5#32, 6#32] 4 [0#32, 0#32] = some [5#32, 6#32] := by
  decide

/-! ### C15 -/

/-- In place, a unit vector at the last position is lost. -/
theorem aliased_two_valued (n s : ℕ) (hs : 1 ≤ s) (hsn : s < n) (f g : Torus → Torus)
    (hf : ∀ x, x = 0 ∨ x = compl 0 → f x = 0 ∨ f x = compl 0)
    (hg : ∀ x, x = 0 ∨ x = compl 0 → g x = 0 ∨ g x = compl 0) (a : List Torus) (hl : a.length = n)
    (ha : ∀ j < n - 1, a[j]? = some 0) :
    ∃ res, ((forRange 0 (n - s) a fun i r => (rd r i).bind fun x => wr r (i + s) (f x)).bind
          fun a => forRange (n - s) n a fun i r => (rd r i).bind fun x => wr r (i + s - n) (g x))
          = some res ∧ ∀ j < n, res[j]? = some 0 ∨ res[j]? = some (compl 0) := by
  obtain ⟨r1, e1, l1, v1⟩ := forRange_inv 0 (n - s) (Nat.zero_le _) a
    (fun i r => (rd r i).bind fun x => wr r (i + s) (f x))
    (fun i r => r.length = n ∧ ∀ j, j < i + s → j < n → r[j]? = some 0 ∨ r[j]? = some (compl 0))
    ⟨hl, fun j h _ => Or.inl (ha j (by omega))⟩ (by
      rintro i r _ hi ⟨hr, hv⟩
      obtain ⟨x, hx, hx'⟩ : ∃ x, r[i]? = some x ∧ (x = 0 ∨ x = compl 0) := by
        rcases hv i (by omega) (by omega) with h | h
        · exact ⟨_, h, Or.inl rfl⟩
        · exact ⟨_, h, Or.inr rfl⟩
      refine ⟨r.set (i + s) (f x), ?_, by simpa using hr, ?_⟩
      · simp only [rd, hx, Option.bind_some]
        rw [wr_eq _ _ _ (by omega)]
      · intro j h1 h2
        rw [List.getElem?_set]
        by_cases e : i + s = j
        · rw [if_pos e, if_pos (by omega)]
          rcases hf x hx' with h | h <;> rw [h] <;> simp
        · rw [if_neg e]
          exact hv j (by omega) h2)
  obtain ⟨r2, e2, l2, v2⟩ := forRange_inv (n - s) n (by omega) r1
    (fun i r => (rd r i).bind fun x => wr r (i + s - n) (g x))
    (fun _ r => r.length = n ∧ ∀ j, j < n → r[j]? = some 0 ∨ r[j]? = some (compl 0))
    ⟨l1, fun j h => v1 j (by omega) h⟩ (by
      rintro i r _ hi ⟨hr, hv⟩
      obtain ⟨x, hx, hx'⟩ : ∃ x, r[i]? = some x ∧ (x = 0 ∨ x = compl 0) := by
        rcases hv i (by omega) with h | h
        · exact ⟨_, h, Or.inl rfl⟩
        · exact ⟨_, h, Or.inr rfl⟩
      refine ⟨r.set (i + s - n) (g x), ?_, by simpa using hr, ?_⟩
      · simp only [rd, hx, Option.bind_some]
        rw [wr_eq _ _ _ (by omega)]
      · intro j h2
        rw [List.getElem?_set]
        by_cases e : i + s - n = j
        · rw [if_pos e, if_pos (by omega)]
          rcases hg x hx' with h | h <;> rw [h] <;> simp
        · rw [if_neg e]
          exact hv j h2)
  exact ⟨r2, by rw [e1]; exact e2, v2⟩

/-- Go's remainder, then the sign fix. -/
theorem goMod_sign_fix (k : ℤ) (n : ℕ) (hn : 1 ≤ n) :
    ∃ t : ℤ, goMod k (2 * n) = some t ∧
      ((t = 0 ∧ k % (2 * n) = 0) ∨
       (t ≠ 0 ∧ k % (2 * n) ≠ 0 ∧ (if t < 0 then t + 2 * n else t) = k % (2 * n))) := by
  refine ⟨Int.tmod k (2 * n), by unfold goMod; rw [if_neg (by omega)], ?_⟩
  have hr0 : 0 ≤ k % (2 * n) := Int.emod_nonneg _ (by omega)
  have hr1 : k % (2 * n) < 2 * n := Int.emod_lt_of_pos _ (by omega)
  have hd := Int.dvd_iff_tmod_eq_zero (a := (2 * n : ℤ)) (b := k)
  have hd' := Int.dvd_iff_emod_eq_zero (a := (2 * n : ℤ)) (b := k)
  by_cases hz : Int.tmod k (2 * n) = 0
  · exact Or.inl ⟨hz, hd'.1 (hd.2 hz)⟩
  · refine Or.inr ⟨hz, fun h => hz (hd.1 (hd'.2 h)), ?_⟩
    rw [Int.tmod_eq_emod]
    have : ((2 * n : ℤ).natAbs : ℤ) = 2 * n := by omega
    split_ifs with h3 h4 h4 <;> omega

/-- **C15.** Called in place, `PolyMulWithXKInPlace` gives the rotated polynomial for every input of
length `n` exactly when `k` is a multiple of `n`. -/
theorem C15_inPlace_iff (n : ℕ) (hn : 1 ≤ n) (k : ℤ) :
    (∀ a : List Torus, a.length = n →
      polyMulWithXKAliased a k = polyMulWithXK a k (mkSlice n 0)) ↔ (n : ℤ) ∣ k := by
  have hr0 : 0 ≤ k % (2 * n) := Int.emod_nonneg _ (by omega)
  have hr1 : k % (2 * n) < 2 * n := Int.emod_lt_of_pos _ (by omega)
  have hdk : (n : ℤ) ∣ k ↔ k % (2 * n) = 0 ∨ k % (2 * n) = n := by
    have e := Int.emod_add_mul_ediv k (2 * n)
    constructor
    · rintro ⟨q, hq⟩
      have h3 : (n : ℤ) ∣ k % (2 * n) := ⟨q - 2 * (k / (2 * n)), by rw [hq] at e ⊢; linarith⟩
      obtain ⟨c, hc⟩ := h3
      have hc0 : 0 ≤ c := by
        by_contra h
        have : (n : ℤ) * c < 0 := mul_neg_of_pos_of_neg (by omega) (by omega)
        omega
      have hc1 : c < 2 := by
        by_contra h
        have : (n : ℤ) * 2 ≤ n * c := mul_le_mul_of_nonneg_left (by omega) (by omega)
        omega
      interval_cases c
      · left; simpa using hc
      · right; simpa using hc
    · rintro (h | h)
      · exact ⟨2 * (k / (2 * n)), by rw [h] at e; linarith⟩
      · exact ⟨1 + 2 * (k / (2 * n)), by rw [h] at e; linarith⟩
  obtain ⟨t, ht, hcase⟩ := goMod_sign_fix k n hn
  rw [hdk]
  constructor
  · intro H
    by_contra hcon
    push Not at hcon
    obtain ⟨hc0, hcn⟩ := hcon
    rcases hcase with ⟨_, h⟩ | ⟨htz, _, hfix⟩
    · exact hc0 h
    -- the unit vector at the last position
    set a : List Torus := tab n (fun i => if i = n - 1 then 1 else 0) with ha
    have hal : a.length = n := length_tab _ _
    have hav : ∀ j < n - 1, a[j]? = some 0 := by
      intro j hj
      rw [ha, getElem?_tab, if_pos (by omega), if_neg (by omega)]
    have hid : ∀ x : Torus, x = 0 ∨ x = compl 0 → x = 0 ∨ x = compl 0 := fun _ h => h
    have hcm : ∀ x : Torus, x = 0 ∨ x = compl 0 → compl x = 0 ∨ compl x = compl 0 := by
      rintro x (h | h)
      · rw [h]; exact Or.inr rfl
      · rw [h, compl_compl]; exact Or.inl rfl
    have hA : ∃ res, polyMulWithXKAliased a k = some res ∧
        ∀ j < n, res[j]? = some 0 ∨ res[j]? = some (compl 0) := by
      unfold polyMulWithXKAliased
      simp only [hal, ht, Option.bind_eq_bind, Option.bind_some]
      rw [if_neg htz]
      simp only [hfix]
      by_cases hlt : k % (2 * n) < n
      · rw [if_pos hlt]
        exact aliased_two_valued n (k % (2 * n)).toNat (by omega) (by omega) (fun x => x) compl hid hcm
          a hal hav
      · rw [if_neg hlt]
        exact aliased_two_valued n (k % (2 * n) - n).toNat (by omega) (by omega) compl (fun x => x) hcm
          hid a hal hav
    obtain ⟨res, hres, hres'⟩ := hA
    have hP := polyMulWithXK_eq a k (mkSlice n 0) (by omega) (by rw [length_mkSlice]; omega)
    have hH := H a hal
    rw [hres, hP, List.drop_of_length_le (by rw [length_mkSlice]; omega), List.append_nil, hal] at hH
    have hH' := Option.some.inj hH
    -- look at the entry that receives `a[n-1]`
    set p := (((n : ℤ) - 1 + k) % n).toNat with hp
    have hp0 : 0 ≤ ((n : ℤ) - 1 + k) % n := Int.emod_nonneg _ (by omega)
    have hp1 : ((n : ℤ) - 1 + k) % n < n := Int.emod_lt_of_pos _ (by omega)
    have hpn : p < n := by omega
    have hval : res[p]? = some (extG compl n (at' a) (p - k)) := by
      rw [hH', getElem?_tab, if_pos hpn]
    have hpm : ((p : ℤ) - k) % n = n - 1 := by
      have : (p : ℤ) = ((n : ℤ) - 1 + k) % n := by omega
      rw [this, Int.emod_sub_emod]
      rw [show (n : ℤ) - 1 + k - k = n - 1 by ring]
      exact Int.emod_eq_of_lt (by omega) (by omega)
    have hval2 : extG compl n (at' a) (p - k) = 1 ∨ extG compl n (at' a) (p - k) = compl 1 := by
      have h2 : at' a (((p : ℤ) - k) % n).toNat = 1 := by
        rw [hpm, ha, at'_tab _ _ _ (by omega), if_pos (by omega)]
      unfold extG
      rw [h2]
      split_ifs
      · exact Or.inl rfl
      · exact Or.inr rfl
    rcases hval2 with h | h <;> rw [h] at hval <;>
      rcases hres' p hpn with h' | h' <;> rw [h'] at hval <;>
      exact absurd (Option.some.inj hval) (by decide)
  · rintro (h | h) a ha
    · rw [polyMulWithXK_eq a k (mkSlice n 0) (by omega) (by rw [length_mkSlice]; omega),
        List.drop_of_length_le (by rw [length_mkSlice]; omega), List.append_nil]
      unfold polyMulWithXKAliased
      rcases hcase with ⟨h0, _⟩ | ⟨_, h1, _⟩
      · simp only [ha, ht, Option.bind_eq_bind, Option.bind_some, h0, if_true, Option.pure_def]
        congr 1
        conv_lhs => rw [← tab_at' a, ha]
        apply tab_congr
        intro i hi
        have e := Int.emod_add_mul_ediv k (2 * n)
        rw [show (i : ℤ) - k = i + 2 * n * (-(k / (2 * n))) by rw [h] at e; linarith,
          extG_add_two_mul compl compl_compl _ (by omega), extG_of_lt _ _ _ _ hi]
      · exact absurd h h1
    · -- `k ≡ n`: every entry is complemented where it stands
      rcases hcase with ⟨_, h0⟩ | ⟨htz, _, hfix⟩
      · omega
      · unfold polyMulWithXKAliased polyMulWithXK
        simp only [ha, ht, Option.bind_eq_bind, Option.bind_some]
        rw [if_neg htz, if_neg htz]
        simp only [hfix, h, lt_irrefl, if_false, sub_self, Int.toNat_zero, Nat.sub_zero, Nat.add_zero]
        have hA : forRange 0 n a (fun i r => (rd r i).bind fun x => wr r i (BitVec.allOnes 32 - x))
            = some (tab n fun i => compl (at' a i)) := by
          obtain ⟨r, e, hr, hv1, hv2⟩ := forRange_inv 0 n (Nat.zero_le _) a
            (fun i r => (rd r i).bind fun x => wr r i (BitVec.allOnes 32 - x))
            (fun i r => r.length = n ∧ (∀ j, j < i → r[j]? = some (compl (at' a j))) ∧
              (∀ j, i ≤ j → r[j]? = a[j]?))
            ⟨ha, fun j hj => absurd hj (by omega), fun j _ => rfl⟩ (by
              rintro i r _ hi ⟨hr, hv1, hv2⟩
              have hg : r[i]? = some (at' a i) := by
                rw [hv2 i (le_refl _)]; exact rd_at' a i (by omega)
              refine ⟨r.set i (compl (at' a i)), ?_, by simpa using hr, ?_, ?_⟩
              · simp only [rd, hg, Option.bind_some]
                rw [wr_eq _ _ _ (by omega)]; rfl
              · intro j hj
                rw [List.getElem?_set]
                by_cases e : i = j
                · rw [if_pos e, if_pos (by omega), e]
                · rw [if_neg e]; exact hv1 j (by omega)
              · intro j hj
                rw [List.getElem?_set, if_neg (by omega)]
                exact hv2 j (by omega))
          rw [e]
          congr 1
          apply List.ext_getElem?
          intro j
          rw [getElem?_tab]
          split_ifs with h3
          · exact hv1 j h3
          · exact List.getElem?_eq_none (by omega)
        have hB : forRange 0 n (mkSlice n (0 : Torus))
            (fun i r => (rd a i).bind fun x => wr r i (BitVec.allOnes 32 - x))
            = some (tab n fun i => compl (at' a i)) := by
          apply forRange_fill_full
          · exact length_mkSlice _ _
          · intro i hi l hl
            rw [rd_at' a i (by omega), Option.bind_some]; rfl
        rw [hA, hB, Option.bind_some, Option.bind_some, forRange_empty (h := le_refl n),
          forRange_empty (h := le_refl n)]

/-- **C15**: a concrete wrong result. -/
theorem C15_inPlace_wrong : polyMulWithXKAliased [1#32, 2#32] 1 = some [-2#32, 1#32] ∧
    polyMulWithXK [1#32, 2#32] 1 [0#32, 0#32] = some [-3#32, 1#32] := by decide

end GoTfhe
