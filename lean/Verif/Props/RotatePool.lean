import Verif.Props.Rotate
import Verif.Lemmas.PoolEval

/-!
# C15, pooled: rotating the buffer that the pool hands out next
-/

namespace GoTfhe

variable {O : FourierOps}

/-- **C15.** `Evaluator.PolyMulWithXK` writes its result to the next buffer of a pool of four. If its argument is this very
buffer, that is, the result of the call four calls ago, the result is the rotated polynomial for every content exactly when
`k` is a multiple of `n`. -/
theorem C15_pool (st : PEState O) (n : ℕ) (hn : 1 ≤ n) (k : ℤ) :
    (∀ a : List Torus, a.length = n → ∃ st', polyMulWithXKPooled (st.set (.rot st.rotIdx) a) (.rot st.rotIdx) k
        = some (st', .rot st.rotIdx) ∧ some (st'.mem (.rot st.rotIdx)) = polyMulWithXK a k (mkSlice n 0)) ↔ (n : ℤ) ∣ k := by
  rw [← C15_inPlace_iff n hn k]
  have e : ∀ a : List Torus, polyMulWithXKPooled (st.set (.rot st.rotIdx) a) (.rot st.rotIdx) k
      = (polyMulWithXKAliased a k).bind fun res =>
        some ((getRotationBuffer (st.set (.rot st.rotIdx) a)).1.set (.rot st.rotIdx) res, .rot st.rotIdx) := by
    intro a
    unfold polyMulWithXKPooled
    simp only [getRotationBuffer, PEState.set, Function.update_self, if_true]
    rfl
  refine forall_congr' fun a => imp_congr_right fun ha => ?_
  rw [e]
  constructor
  · rintro ⟨st', h1, h2⟩
    rcases hA : polyMulWithXKAliased a k with _ | res
    · rw [hA] at h1
      exact absurd h1 (by simp)
    · rw [hA, Option.bind_some] at h1
      obtain rfl := (Prod.mk.injEq _ _ _ _ ▸ Option.some.inj h1).1
      rw [← h2]
      simp [PEState.set]
  · intro h
    rw [h, polyMulWithXK_eq a k _ (by omega) (by rw [length_mkSlice]; omega), Option.bind_some]
    exact ⟨_, rfl, by simp [PEState.set]⟩

/-- **C15.** After four rotations of the caller's polynomials the pool is back at the buffer that holds the result of the
first: rotating this result is a call in place. -/
theorem C15_pool_reuse {P : Params} (L : FourierLaws O) (hN : 1 ≤ P.trgswLv1.N) (st : PEState O) (hg : PEGood P L st)
    (u : ℕ → ℕ) (k : ℕ → ℤ) (hl : ∀ m, (st.mem (.user (u m))).length = P.trgswLv1.N) :
    ∃ st' r0 r1 r2 r3, (do
        let (s, r0) ← polyMulWithXKPooled st (.user (u 0)) (k 0)
        let (s, r1) ← polyMulWithXKPooled s (.user (u 1)) (k 1)
        let (s, r2) ← polyMulWithXKPooled s (.user (u 2)) (k 2)
        let (s, r3) ← polyMulWithXKPooled s (.user (u 3)) (k 3)
        pure (s, r0, r1, r2, r3)) = some (st', r0, r1, r2, r3) ∧
      r0 = .rot st'.rotIdx ∧ some (st'.mem r0) = polyMulWithXK (st.mem (.user (u 0))) (k 0) (mkSlice P.trgswLv1.N 0) := by
  have hr := hg.rot_lt
  obtain ⟨s1, e1, g1, m1, f1, i1, -⟩ := polyMulWithXKPooled_eq L hN st hg (.user (u 0)) (k 0) (by simp) (hl 0)
  obtain ⟨s2, e2, g2, m2, f2, i2, -⟩ := polyMulWithXKPooled_eq L hN s1 g1 (.user (u 1)) (k 1) (by simp)
    (by rw [f1 _ (by simp)]; exact hl 1)
  obtain ⟨s3, e3, g3, m3, f3, i3, -⟩ := polyMulWithXKPooled_eq L hN s2 g2 (.user (u 2)) (k 2) (by simp)
    (by rw [f2 _ (by simp), f1 _ (by simp)]; exact hl 2)
  obtain ⟨s4, e4, g4, m4, f4, i4, -⟩ := polyMulWithXKPooled_eq L hN s3 g3 (.user (u 3)) (k 3) (by simp)
    (by rw [f3 _ (by simp), f2 _ (by simp), f1 _ (by simp)]; exact hl 3)
  refine ⟨s4, .rot st.rotIdx, .rot s1.rotIdx, .rot s2.rotIdx, .rot s3.rotIdx, ?_, ?_, ?_⟩
  · simp [e1, e2, e3, e4]
  · rw [i4, i3, i2, i1]
    congr 1
    omega
  · have h := hl 0
    rw [f4 _ (by simp; omega), f3 _ (by simp; omega), f2 _ (by simp; omega), m1,
      polyMulWithXK_eq _ _ _ (by omega) (by rw [length_mkSlice]; omega), h,
      List.drop_eq_nil_of_le (by rw [length_mkSlice]), List.append_nil]

/-- Non-vacuity of C15, pooled: `N = 2`, `k = 1` is wrong on the fifth call. -/
example (st : PEState O) : ¬ ∀ a : List Torus, a.length = 2 → ∃ st', polyMulWithXKPooled (st.set (.rot st.rotIdx) a)
    (.rot st.rotIdx) 1 = some (st', .rot st.rotIdx) ∧ some (st'.mem (.rot st.rotIdx)) = polyMulWithXK a 1 (mkSlice 2 0) := by
  rw [C15_pool st 2 (by norm_num) 1]
  decide

end GoTfhe
