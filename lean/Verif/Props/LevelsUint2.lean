import Verif.Lemmas.FftLaws
import Verif.Props.Levels

/-!
# C50 at `Uint2`: the degree shrinks

The start-up evaluator has degree 1024; a cloud key made at `Uint2` holds transforms of degree 512. The question is
about two polynomial evaluators at once, so it is answered for the transform of the library (`fftOps`), whose
`FourierPoly` values are slices of any length.
-/

namespace GoTfhe

variable {R : Type} (A : Arith R)

/-- A cloud key made with one polynomial evaluator, used with another: a `FourierPoly` is a slice
(`/repo/poly/poly.go:60-62`) and carries no degree but its length. -/
def CloudKey.usedWith {e2 : PolyEval R} (e : PolyEval R) (ck : CloudKey (fftOps A e2)) : CloudKey (fftOps A e) :=
  ⟨ck.decompositionOffset, ck.blindRotateTestvec, ck.keySwitchingKey,
    ck.bootstrappingKey.map fun g => g.map fun row => ⟨row.A, row.B⟩⟩

/-- The complex loops read their second operand up to the length of the output. -/
theorem cmplxLoop_none (f : ℕ → R × R → R × R → R × R → R × R) (v0 : Option (List R)) (v1 vOut : List R) (k : ℕ)
    (h1 : v1.length = 8 * k) (h2 : 8 * k < vOut.length) : cmplxLoop f v0 (some v1) vOut = none := by
  unfold cmplxLoop forStep
  refine forRange_panics (fun _ => True) _ (fun _ _ _ _ _ => trivial) 0 _ k (Nat.zero_le _) (by omega) ?_ _ trivial
  intro s _
  refine forRange_panics (fun _ => True) _ (fun _ _ _ _ _ => trivial) 0 4 0 le_rfl (by norm_num) ?_ _ trivial
  intro t _
  simp only [Option.bind_eq_bind]
  rw [Option.bind_eq_none_iff]
  intro x _
  rw [Option.bind_eq_none_iff]
  intro y _
  rw [Option.getD_some, rd_none _ _ (by omega)]
  rfl

/-- If the accumulation of the first product panics, so does the external product. -/
theorem externalProductAssign_small {O : FourierOps} (P : Params) (hl : 0 < P.trgswLv1.L) (st : EvState O)
    (g : TrgswF O) (hg : ∀ row ∈ g, ∀ d, O.mulAddAssign d row.A (O.clear st.fourierA) = none) (x y : TRef)
    (off : Torus) : externalProductAssign P st g x off y = none := by
  rw [Option.eq_none_iff_forall_ne_some]
  intro z ez
  unfold externalProductAssign at ez
  simp only [Option.bind_eq_bind] at ez
  split_ifs at ez
  obtain ⟨dA, -, ez⟩ := Option.bind_eq_some_iff.1 ez
  obtain ⟨dB, -, ez⟩ := Option.bind_eq_some_iff.1 ez
  obtain ⟨four, -, ez⟩ := Option.bind_eq_some_iff.1 ez
  obtain ⟨acc, eacc, -⟩ := Option.bind_eq_some_iff.1 ez
  rw [forRange_succ_left _ _ (by omega)] at eacc
  obtain ⟨u, eu, -⟩ := Option.bind_eq_some_iff.1 eacc
  obtain ⟨d, -, eu⟩ := Option.bind_eq_some_iff.1 eu
  obtain ⟨row, er, eu⟩ := Option.bind_eq_some_iff.1 eu
  obtain ⟨a, ea, -⟩ := Option.bind_eq_some_iff.1 eu
  have hrow := hg row (by unfold rd at er; exact List.mem_of_getElem? er) d
  rw [hrow] at ea
  exact absurd ea (by simp)

/-- Rotation does not touch the Fourier buffers. -/
theorem rotateInto_fourierA {O : FourierOps} (s s' : EvState O) (src dst : TRef) (k : ℤ)
    (h : rotateInto s src k dst = some s') : s'.fourierA = s.fourierA := by
  unfold rotateInto at h
  simp only [Option.bind_eq_bind] at h
  split_ifs at h <;>
  · obtain ⟨a, -, h⟩ := Option.bind_eq_some_iff.1 h
    obtain ⟨b, -, h⟩ := Option.bind_eq_some_iff.1 h
    cases h
    rfl

/-- So does blind rotation, whatever the ciphertext. -/
theorem blindRotateAssign_small {O : FourierOps} (P : Params) (hl : 0 < P.trgswLv1.L) (hn : 0 < P.tlweLv0.N)
    (st : EvState O) (bsk : List (TrgswF O))
    (hg : ∀ g ∈ bsk, ∀ row ∈ g, ∀ d, O.mulAddAssign d row.A (O.clear st.fourierA) = none)
    (ctIn : LRef) (tv ctOut : TRef) (off : Torus) :
    blindRotateAssign P st ctIn tv bsk off ctOut = none := by
  unfold blindRotateAssign
  simp only [Option.bind_eq_bind]
  rw [Option.bind_eq_none_iff]
  intro b _
  rw [Option.bind_eq_none_iff]
  intro s es
  rw [Option.bind_eq_none_iff]
  intro t et
  exfalso
  rw [forRange_succ_left _ _ hn] at et
  obtain ⟨u, eu, -⟩ := Option.bind_eq_some_iff.1 et
  obtain ⟨a, -, eu⟩ := Option.bind_eq_some_iff.1 eu
  obtain ⟨v, ev, eu⟩ := Option.bind_eq_some_iff.1 eu
  obtain ⟨g, eg, eu⟩ := Option.bind_eq_some_iff.1 eu
  have hv : v.fourierA = st.fourierA :=
    (rotateInto_fourierA _ _ _ _ _ ev).trans (rotateInto_fourierA _ _ _ _ _ es)
  unfold cMuxAssign at eu
  simp only [Option.bind_eq_bind] at eu
  obtain ⟨w, ew, eu⟩ := Option.bind_eq_some_iff.1 eu
  obtain ⟨x, ex, -⟩ := Option.bind_eq_some_iff.1 eu
  have hw : w.fourierA = v.fourierA := by
    refine forRange_pres (fun s : EvState O => s.fourierA = v.fourierA) _ ?_ _ _ _ _ ew rfl
    intro i s s' e hs
    obtain ⟨_, -, e⟩ := Option.bind_eq_some_iff.1 e
    obtain ⟨_, -, e⟩ := Option.bind_eq_some_iff.1 e
    obtain ⟨u, e1, e⟩ := Option.bind_eq_some_iff.1 e
    obtain ⟨_, -, e⟩ := Option.bind_eq_some_iff.1 e
    obtain ⟨_, -, e⟩ := Option.bind_eq_some_iff.1 e
    unfold EvState.wrA at e1
    unfold EvState.wrB at e
    simp only [Option.bind_eq_bind] at e e1
    obtain ⟨_, -, e1⟩ := Option.bind_eq_some_iff.1 e1
    obtain ⟨_, -, e⟩ := Option.bind_eq_some_iff.1 e
    cases e1; cases e
    exact hs
  rw [externalProductAssign_small P hl w g (by
    rw [hw, hv]
    exact hg g (by unfold rd at eg; exact List.mem_of_getElem? eg))] at ex
  exact absurd ex (by simp)

/-- So does every gate. -/
theorem gate2_small {O : FourierOps} (P : Params) (hl : 0 < P.trgswLv1.L) (hn : 0 < P.tlweLv0.N) (st : EvState O)
    (ck : CloudKey O)
    (hg : ∀ g ∈ ck.bootstrappingKey, ∀ row ∈ g, ∀ d, O.mulAddAssign d row.A (O.clear st.fourierA) = none)
    (g : Gate2) (a b : List Torus) : gate2 P g st a b ck = none := by
  rw [gate2_eq, Option.bind_eq_none_iff]
  intro c _
  unfold gateBootstrap bootstrapPooled getNextResult bootstrapAssign
  simp only [Option.bind_eq_bind]
  rw [blindRotateAssign_small P hl hn _ _ ?_]
  · rfl
  · exact hg

/-- Accumulating a product with a transform of length 512 into a cleared buffer of length 1024 panics. -/
theorem fft_mulAdd_small (d row acc : List R) (hrow : row.length = 512) (hacc : acc.length = 1024) :
    mulAddFourierAssign A (some d) (some row) (acc.map fun _ => A.zero) = none := by
  unfold mulAddFourierAssign
  refine cmplxLoop_none _ _ _ _ 64 (by omega) ?_
  rw [List.length_map]
  omega

/-- The rows of a generated bootstrapping key are well formed. -/
theorem rows_of_newCloudKey {O : FourierOps} {P : Params} (W : WellFormed P) (L : FourierLaws O)
    (hd : O.deg = P.trgswLv1.N) (k0 k1 : List Torus) (Rnd : KeyGenRand) (h0 : P.tlweLv0.N ≤ k0.length)
    (h1 : k1.length = P.trgswLv1.N) (sK sB : List ℕ) (ck : CloudKey O)
    (e : newCloudKey P O k0 k1 Rnd sK sB = some (true, ck)) :
    ∀ g ∈ ck.bootstrappingKey, ∀ row ∈ g, L.ok row.A := by
  unfold newCloudKey at e
  simp only [Option.bind_eq_bind] at e
  obtain ⟨off, -, e⟩ := Option.bind_eq_some_iff.1 e
  obtain ⟨tv, -, e⟩ := Option.bind_eq_some_iff.1 e
  obtain ⟨⟨tk, ksk⟩, -, e⟩ := Option.bind_eq_some_iff.1 e
  obtain ⟨⟨tb, bsk⟩, eb, e⟩ := Option.bind_eq_some_iff.1 e
  simp only [Option.pure_def, Option.some.injEq, Prod.mk.injEq, Bool.and_eq_true] at e
  obtain ⟨⟨-, hdone⟩, rfl⟩ := e
  obtain ⟨t', b', eb', hl, hrows⟩ := C36_bootstrappingKey W L hd k0 k1 Rnd h0 h1 sB
  obtain ⟨rfl, rfl⟩ : t' = tb ∧ b' = bsk := by simpa using eb'.symm.trans eb
  intro g hg row hrow
  have hg' : g ∈ b' := hg
  obtain ⟨i, hi, rfl⟩ := List.mem_iff_getElem.1 hg'
  have hgi := hrows hdone i (by omega)
  have e := trgswEncryptTorus_eq W L hd (newTRGSWLv1 P) (by simp [newTRGSWLv1]; ring) (at' k0 i) k1 h1
    (Rnd.bskDraw i) (Rnd.bskSample i)
  have ht := isTrgsw_gswRow P L (at' k0 i) k1 (Rnd.bskDraw i) (Rnd.bskSample i)
  have ef := newTRGSWLv1FFT_eq L _ (fun r h => by rw [ht.sizedA r h, hd]) (fun r h => by rw [ht.sizedB r h, hd])
  have e2 : bskEntry P O k0 k1 Rnd i = some ((tab (2 * P.trgswLv1.L) (gswRow P L (at' k0 i) k1 (Rnd.bskDraw i)
      (Rnd.bskSample i))).map fun r => ⟨L.T r.A, L.T r.B⟩) := by
    unfold bskEntry
    rw [rd_at' k0 i (by omega)]
    simp only [Option.bind_eq_bind, Option.bind_some, e]
    exact ef
  rw [e2, List.getElem?_eq_getElem hi, Option.some.injEq] at hgi
  rw [hgi] at hrow
  obtain ⟨r, hr, rfl⟩ := List.mem_map.1 hrow
  exact L.ok_T _ (by rw [ht.sizedA r hr, hd])

/-- **C50 at `Uint2`.** With the library's transform in any arithmetic, with every cloud key generated at that level:
every gate panics, on every input, in every state in which the accumulator of external products has the size it was
made with at start-up. -/
theorem C50_panics_2 {e2 e : PolyEval R} (h2 : newPolyEval A (paramsFor 2).trgswLv1.N = some e2)
    (h1 : newPolyEval A (paramsFor initialLevel).trgswLv1.N = some e)
    (k0 k1 : List Torus) (Rnd : KeyGenRand) (hk0 : (paramsFor 2).tlweLv0.N ≤ k0.length)
    (hk1 : k1.length = (paramsFor 2).trgswLv1.N) (schedK schedB : List ℕ) (ck : CloudKey (fftOps A e2))
    (hck : newCloudKey (paramsFor 2) (fftOps A e2) k0 k1 Rnd schedK schedB = some (true, ck))
    (tr0 : TRef → Trlwe) (lw0 : LRef → List Torus) :
    (∃ st0, newEvaluator (paramsFor initialLevel) (fftOps A e) tr0 lw0 = some st0 ∧
      List.length (α := R) st0.fourierA = 1024) ∧
    ∀ st : EvState (fftOps A e), List.length (α := R) st.fourierA = 1024 →
      ∀ (g : Gate2) (a b : List Torus), gate2 (paramsFor 2) g st a b (ck.usedWith A e) = none := by
  obtain ⟨k2, hk2, e2N, rfl⟩ := (newPolyEval_some A _ _).1 h2
  obtain ⟨k, hk, eN, rfl⟩ := (newPolyEval_some A _ _).1 h1
  have e2N' : (2 : ℕ) ^ (k2 + 1) = 512 := by
    have : (512 : ℤ) = ((2 ^ (k2 + 1) : ℕ) : ℤ) := e2N
    exact_mod_cast this.symm
  have eN' : (2 : ℕ) ^ (k + 1) = 1024 := by
    have : (1024 : ℤ) = ((2 ^ (k + 1) : ℕ) : ℤ) := eN
    exact_mod_cast this.symm
  have hd2 : (fftOps A (pev A k2)).deg = (paramsFor 2).trgswLv1.N := e2N'
  have hd : (fftOps A (pev A k)).deg = (paramsFor initialLevel).trgswLv1.N := eN'
  have rows := rows_of_newCloudKey (C63_wellFormed 2) (fftLaws A k2 hk2) hd2 k0 k1 Rnd hk0 hk1 schedK schedB ck hck
  obtain ⟨st, est, hst, -⟩ := newEvaluator_good (C63_wellFormed initialLevel) (fftLaws A k hk) hd tr0 lw0
  refine ⟨⟨st, est, (show List.length (α := R) st.fourierA = 2 ^ (k + 1) from hst.okA).trans eN'⟩, ?_⟩
  intro st hacc g a b
  refine gate2_small (paramsFor 2) (C63_wellFormed 2).l_pos (C63_wellFormed 2).lv0_pos st _ ?_ g a b
  intro g hg row hrow d
  obtain ⟨g', hg', rfl⟩ := List.mem_map.1 hg
  obtain ⟨row', hrow', rfl⟩ := List.mem_map.1 hrow
  exact fft_mulAdd_small A d row'.A st.fourierA ((rows g' hg' row' hrow').trans e2N') hacc

/-- Such cloud keys exist for every arithmetic, every key pair and all randomness. -/
example (Rnd : KeyGenRand) : ∃ e2 e : PolyEval R, newPolyEval A (paramsFor 2).trgswLv1.N = some e2 ∧
    newPolyEval A (paramsFor initialLevel).trgswLv1.N = some e ∧
    ∃ schedK schedB ck, newCloudKey (paramsFor 2) (fftOps A e2) (unitKey 687) (unitKey 512) Rnd schedK schedB
      = some (true, ck) := by
  refine ⟨pev A 8, pev A 9, (newPolyEval_some A _ _).2 ⟨8, by norm_num, rfl, rfl⟩,
    (newPolyEval_some A _ _).2 ⟨9, by norm_num, rfl, rfl⟩, ?_⟩
  exact exists_cloudKey (C63_wellFormed 2) (fftLaws A 8 (by norm_num)) rfl _ _ Rnd (by simp [unitKey]; exact le_rfl)
    (by simp [unitKey]; rfl) (isBinary_unitKey _)

end GoTfhe
