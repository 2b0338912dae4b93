import Verif.Props.Rand
import Verif.Props.WrongDirection
import Verif.Props.Trlwe

/-!
# C92: repeated randomness
-/

namespace GoTfhe

open Finset

/-- Two ciphertexts with the same mask whose bodies differ by `d`: subtracting one from the other gives `d` in the
clear. -/
def DiffersBy (n : ℕ) (c c' : List Torus) (d : Torus) : Prop :=
  (∀ i < n, at' c i = at' c' i) ∧ at' c n - at' c' n = d

theorem differsBy_of {n : ℕ} {c c' key : List Torus} {draw : ℕ → Torus} {p p' e : Torus}
    (h : ∀ i < n, at' c i = draw i) (h' : ∀ i < n, at' c' i = draw i)
    (hp : phase n c key = p + e) (hp' : phase n c' key = p' + e) : DiffersBy n c c' (p - p') := by
  refine ⟨fun i hi => (h i hi).trans (h' i hi).symm, ?_⟩
  unfold phase at hp hp'
  have hs : ∑ i ∈ range n, at' c i * at' key i = ∑ i ∈ range n, at' c' i * at' key i :=
    sum_congr rfl fun i hi => by rw [h i (mem_range.1 hi), h' i (mem_range.1 hi)]
  rw [hs] at hp
  rw [sub_eq_iff_eq_add] at hp hp'
  rw [hp, hp']
  abel

/-- **C92**: two encryptions at level 0 whose seeds have the same remainder modulo 2^31 - 1 have the same mask and the
same noise: their difference is the difference of the plaintexts, in the clear. -/
theorem C92_false_repeat_lv0 (G : RandSource) (hG : SeedLaw G) (P : Params) (t t' : List Torus) (p p' alpha : ℚ)
    (key : List Torus) (hk : P.tlweLv0.N ≤ key.length) (ht : P.tlweLv0.N < t.length) (ht' : P.tlweLv0.N < t'.length)
    (r r' : ℤ) (hr : 0 ≤ r) (hr' : 0 ≤ r') (h : r % seedClasses = r' % seedClasses) :
    ∃ c c', tlwe0EncryptF64R G P t p alpha key r = some c ∧ tlwe0EncryptF64R G P t' p' alpha key r' = some c' ∧
      DiffersBy P.tlweLv0.N c c' (f64ToTorus p - f64ToTorus p') := by
  unfold tlwe0EncryptF64R
  rw [hG r r' hr hr' h]
  obtain ⟨c, e, -, hm, hp⟩ := tlwe0EncryptF64_eq P t key p (callAt G.uint32 (G.newSource r'))
    (G.gauss alpha (afterCalls G.uint32 P.tlweLv0.N (G.newSource r'))).1 hk ht
  obtain ⟨c', e', -, hm', hp'⟩ := tlwe0EncryptF64_eq P t' key p' (callAt G.uint32 (G.newSource r'))
    (G.gauss alpha (afterCalls G.uint32 P.tlweLv0.N (G.newSource r'))).1 hk ht'
  exact ⟨c, c', e, e', differsBy_of hm hm' hp hp'⟩

/-- **C92**, level 1. -/
theorem C92_false_repeat_lv1 (G : RandSource) (hG : SeedLaw G) (P : Params) (t t' : List Torus) (p p' alpha : ℚ)
    (key : List Torus) (hk : P.tlweLv1.N ≤ key.length) (ht : P.tlweLv1.N < t.length) (ht' : P.tlweLv1.N < t'.length)
    (r r' : ℤ) (hr : 0 ≤ r) (hr' : 0 ≤ r') (h : r % seedClasses = r' % seedClasses) :
    ∃ c c', tlwe1EncryptF64R G P t p alpha key r = some c ∧ tlwe1EncryptF64R G P t' p' alpha key r' = some c' ∧
      DiffersBy P.tlweLv1.N c c' (f64ToTorus p - f64ToTorus p') := by
  unfold tlwe1EncryptF64R
  rw [hG r r' hr hr' h]
  obtain ⟨c, e, -, hm, hp⟩ := tlwe1EncryptF64_eq P t key p (callAt G.uint32 (G.newSource r'))
    (G.gauss alpha (afterCalls G.uint32 P.tlweLv1.N (G.newSource r'))).1 hk ht
  obtain ⟨c', e', -, hm', hp'⟩ := tlwe1EncryptF64_eq P t' key p' (callAt G.uint32 (G.newSource r'))
    (G.gauss alpha (afterCalls G.uint32 P.tlweLv1.N (G.newSource r'))).1 hk ht'
  exact ⟨c, c', e, e', differsBy_of hm hm' hp hp'⟩

/-- **C92**, polynomials: whatever the product of the Fourier backend is, the bodies differ by the plaintexts. -/
theorem C92_false_repeat_trlwe (G : RandSource) (hG : SeedLaw G) (P : Params) {O : FourierOps} (L : FourierLaws O)
    (t t' : Trlwe) (p p' : List ℚ) (alpha : ℚ) (key : List Torus) (hd : O.deg = P.trlweLv1.N)
    (hA : t.A.length = P.trlweLv1.N) (hA' : t'.A.length = P.trlweLv1.N) (hp : p.length = P.trlweLv1.N)
    (hp' : p'.length = P.trlweLv1.N) (hk : key.length = P.trlweLv1.N)
    (r r' : ℤ) (hr : 0 ≤ r) (hr' : 0 ≤ r') (h : r % seedClasses = r' % seedClasses) :
    ∃ c c', trlweEncryptF64R G P O t p alpha key r = some c ∧ trlweEncryptF64R G P O t' p' alpha key r' = some c' ∧
      c.A = c'.A ∧ ∀ i < P.trlweLv1.N, at' c.B i - at' c'.B i = f64ToTorus (p.getD i 0) - f64ToTorus (p'.getD i 0) := by
  unfold trlweEncryptF64R
  rw [hG r r' hr hr' h]
  refine ⟨_, _, trlweEncryptF64_eq P L t p key _ _ hd hA hp hk, trlweEncryptF64_eq P L t' p' key _ _ hd hA' hp' hk,
    rfl, fun i hi => ?_⟩
  have hg : ∀ (p : List ℚ) (f : ℕ → ℚ), p.length = P.trlweLv1.N →
      at' (gaussianF64Vec p f) i = f64ToTorus (p.getD i 0) + f64ToTorus (f i) := by
    intro p f hp
    unfold at' gaussianF64Vec gaussianTorus
    rw [List.getD_eq_getElem?_getD, List.getElem?_mapIdx, List.getD_eq_getElem?_getD,
      List.getElem?_eq_getElem (by omega : i < p.length)]
    rfl
  simp only
  rw [at'_tab _ _ _ hi, at'_tab _ _ _ hi, hg p _ hp, hg p' _ hp']
  abel

/-- **C92** (the claim "different encryptions use different randomness" is false): among any 2^31 or more encryptions
with one key there are two that differ by the difference of the plaintexts. -/
theorem C92_false_repeat (G : RandSource) (hG : SeedLaw G) (P : Params) (key : List Torus)
    (hk : P.tlweLv0.N ≤ key.length) (alpha : ℚ) (k : ℕ) (h : 2 ^ 31 ≤ k) (p : Fin k → ℚ) (r : Fin k → Int63) :
    ∃ i j, i ≠ j ∧ ∃ c c', tlwe0EncryptF64R G P (newTLWELv0 P) (p i) alpha key (r i).1 = some c ∧
      tlwe0EncryptF64R G P (newTLWELv0 P) (p j) alpha key (r j).1 = some c' ∧
      DiffersBy P.tlweLv0.N c c' (f64ToTorus (p i) - f64ToTorus (p j)) := by
  have hq : 2 ^ 31 = seedClasses + 1 := by decide
  obtain ⟨i, j, hij, e⟩ := Fintype.exists_ne_map_eq_of_card_lt
    (fun i : Fin k => (⟨(r i).1 % seedClasses, Nat.mod_lt _ seedClasses_pos⟩ : Fin seedClasses))
    (by rw [Fintype.card_fin, Fintype.card_fin]; omega)
  have e := congrArg Fin.val e
  simp only at e
  refine ⟨i, j, hij, C92_false_repeat_lv0 G hG P _ _ _ _ alpha key hk (by simp [newTLWELv0]) (by simp [newTLWELv0])
    _ _ (by omega) (by omega) ?_⟩
  exact_mod_cast e

/-! ### The birthday bound -/

theorem class_large (a : Int63) : 2 ^ 32 ≤ #{x : Int63 | x.1 % seedClasses = a.1 % seedClasses} :=
  le_card_class (2 ^ 63) seedClasses (2 ^ 32) seedClasses_pos (by unfold seedClasses; norm_num) a

instance : Nonempty Int63 := ⟨0⟩

/-- **C92**: with `k` independent seeds two have the same remainder with probability at least
`1 - exp(-k(k-1)/2^32)`. -/
theorem C92_birthday {ι : Type*} [Fintype ι] [DecidableEq ι] :
    1 - Real.exp (-((Fintype.card ι : ℝ) * (Fintype.card ι - 1) / 2 ^ 32))
      ≤ uprob fun r : ι → Int63 => ∃ i j, i ≠ j ∧ (r i).1 % seedClasses = (r j).1 % seedClasses := by
  have hb := birthday (ι := ι) (α := Int63) (fun x => x.1 % seedClasses) (2 ^ 32) class_large
  have he : ((2 ^ 32 : ℕ) : ℝ) / Fintype.card Int63 * (Fintype.card ι * (Fintype.card ι - 1) / 2)
      = (Fintype.card ι : ℝ) * (Fintype.card ι - 1) / 2 ^ 32 := by
    rw [Fintype.card_fin]
    push_cast
    ring
  rw [he] at hb
  have hn := uprob_not fun r : ι → Int63 => Function.Injective ((fun x : Int63 => x.1 % seedClasses) ∘ r)
  have hm : uprob (fun r : ι → Int63 => ¬ Function.Injective ((fun x : Int63 => x.1 % seedClasses) ∘ r))
      ≤ uprob fun r : ι → Int63 => ∃ i j, i ≠ j ∧ (r i).1 % seedClasses = (r j).1 % seedClasses := by
    refine uprob_mono fun r hr => ?_
    unfold Function.Injective at hr
    push Not at hr
    obtain ⟨i, j, e, hij⟩ := hr
    exact ⟨i, j, hij, e⟩
  linarith

/-! ### Key-switching keys -/

/-- The entries of a key-switching key that are encryptions: coefficient, level, digit minus 1. -/
abbrev KskIx (P : Params) := Fin P.trgswLv1.N × Fin P.trgswLv1.IKS_T × Fin (2 ^ P.trgswLv1.BASEBIT - 1)

/-- The seeds of these entries. -/
def kskSeeds {P : Params} (ρ : KskIx P → Int63) (i j k : ℕ) : ℤ :=
  if h : (i < P.trgswLv1.N ∧ j < P.trgswLv1.IKS_T) ∧ k - 1 < 2 ^ P.trgswLv1.BASEBIT - 1 then
    (ρ (⟨i, h.1.1⟩, ⟨j, h.1.2⟩, ⟨k - 1, h.2⟩)).1
  else 0

/-- The place of an entry in the table. -/
def KskIx.pos {P : Params} (x : KskIx P) : ℕ :=
  2 ^ P.trgswLv1.BASEBIT * P.trgswLv1.IKS_T * x.1 + 2 ^ P.trgswLv1.BASEBIT * x.2.1 + (x.2.2 + 1)

/-- The plaintext of an entry: the digit times the key bit at the level. -/
def KskIx.plain {P : Params} (s1 : List Torus) (x : KskIx P) : ℚ :=
  (((x.2.2.1 + 1 : ℕ) : ℚ) * ((at' s1 x.1.1).toNat : ℚ)) / 2 ^ ((x.2.1.1 + 1) * P.trgswLv1.BASEBIT)

/-- Two different entries of the key-switching key have the same randomness: their difference is the difference of
their plaintexts, multiples of two bits of the secret key. -/
def LeaksDifference (P : Params) (ksk : List (List Torus)) (s1 : List Torus) : Prop :=
  ∃ x y : KskIx P, x ≠ y ∧ DiffersBy P.tlweLv0.N (entry ksk x.pos) (entry ksk y.pos)
    (f64ToTorus (x.plain s1) - f64ToTorus (y.plain s1))

theorem kskEntry_R (G : RandSource) {P : Params} (k0 k1 : List Torus) (ρ : KskIx P → Int63)
    (rB : ℕ → ℕ → ℤ) (h1 : P.trgswLv1.N ≤ k1.length) (x : KskIx P) :
    kskEntry P k0 k1 (keyGenRandR G P (kskSeeds ρ) rB) x.1 x.2.1 (x.2.2 + 1)
      = tlwe0EncryptF64R G P (newTLWELv0 P) (x.plain k1) (kskAlpha P) k0 (ρ x).1 := by
  obtain ⟨⟨i, hi⟩, ⟨j, hj⟩, ⟨k, hk⟩⟩ := x
  have hs : kskSeeds ρ i j (k + 1) = (ρ (⟨i, hi⟩, ⟨j, hj⟩, ⟨k, hk⟩)).1 := by
    unfold kskSeeds
    rw [dif_pos ⟨⟨hi, hj⟩, by omega⟩]
    rfl
  unfold kskEntry tlwe0EncryptF64R keyGenRandR
  rw [rd_at' k1 i (by omega)]
  simp only [Option.bind_eq_bind, Option.bind_some, hs]
  rfl

/-- **C92**: `NewCloudKey` at any parameters, with independent seeds from `rand.Int63()`: with probability at least
`1 - exp(-K(K-1)/2^32)`, where `K = N t (2^basebit - 1)` is the number of encryptions in the key-switching key, two of
its entries have the same mask and the same noise, and give away the difference of their plaintexts. -/
theorem C92_false_ksk (G : RandSource) (hG : SeedLaw G) {P : Params} (W : WellFormed P) (O : FourierOps)
    (k0 k1 : List Torus) (h0 : P.tlweLv0.N ≤ k0.length) (h1 : P.trgswLv1.N ≤ k1.length) (hbin : IsBinary k1)
    (rB : ℕ → ℕ → ℤ) (K : ℕ) (hK : K = P.trgswLv1.N * (P.trgswLv1.IKS_T * (2 ^ P.trgswLv1.BASEBIT - 1))) :
    1 - Real.exp (-((K : ℝ) * (K - 1) / 2 ^ 32)) ≤ uprob fun ρ : KskIx P → Int63 =>
      ∀ (schedK schedB : List ℕ) (ck : CloudKey O),
        newCloudKey P O k0 k1 (keyGenRandR G P (kskSeeds ρ) rB) schedK schedB = some (true, ck) →
          LeaksDifference P ck.keySwitchingKey k1 := by
  have hb := C92_birthday (ι := KskIx P)
  have hc : Fintype.card (KskIx P) = K := by
    rw [hK]
    simp only [Fintype.card_prod, Fintype.card_fin]
  rw [hc] at hb
  refine hb.trans (uprob_mono ?_)
  rintro ρ ⟨x, y, hxy, e⟩ sK sB ck hck
  refine ⟨x, y, hxy, ?_⟩
  have hcs : ((ρ x).1 : ℤ) % seedClasses = ((ρ y).1 : ℤ) % seedClasses := by exact_mod_cast e
  obtain ⟨c, c', ec, ec', hdiff⟩ := C92_false_repeat_lv0 G hG P (newTLWELv0 P) (newTLWELv0 P) (x.plain k1) (y.plain k1)
    (kskAlpha P) k0 h0 (by simp [newTLWELv0]) (by simp [newTLWELv0]) _ _ (by omega) (by omega) hcs
  have ent : ∀ z : KskIx P, ∀ cz, tlwe0EncryptF64R G P (newTLWELv0 P) (z.plain k1) (kskAlpha P) k0 (ρ z).1 = some cz →
      entry ck.keySwitchingKey z.pos = cz := by
    intro z cz ez
    unfold newCloudKey at hck
    simp only [Option.bind_eq_bind, Option.bind_eq_some_iff, Option.pure_def, Option.some.injEq, Prod.mk.injEq,
      Bool.and_eq_true] at hck
    obtain ⟨off, -, tv, -, ⟨tk, ksk⟩, ek, ⟨tb, bsk⟩, -, ⟨d1, -⟩, rfl⟩ := hck
    obtain ⟨tk', ksk', ek', -, hent⟩ := C36_keySwitchingKey W k0 k1 (keyGenRandR G P (kskSeeds ρ) rB) h0 h1 hbin sK
    rw [ek] at ek'
    cases ek'
    have hz := hent d1 z.1 z.1.2 z.2.1 z.2.1.2 (z.2.2 + 1) (by have := z.2.2.2; omega)
    rw [if_neg (Nat.succ_ne_zero _), kskEntry_R G k0 k1 ρ rB h1 z, ez] at hz
    show ksk.getD _ [] = cz
    unfold KskIx.pos
    rw [List.getD_eq_getElem?_getD, hz]
    rfl
  rw [ent x c ec, ent y c' ec']
  exact hdiff

/-- `exp(-x)` is at most `1/(1+x)`. -/
theorem exp_neg_le_inv (x : ℝ) (hx : 0 ≤ x) : Real.exp (-x) ≤ 1 / (1 + x) := by
  rw [Real.exp_neg, ← one_div]
  have := Real.add_one_le_exp x
  exact one_div_le_one_div_of_le (by linarith) (by linarith)

/-- **C92** at the parameters of the library: at every level the cloud key gives away such a difference with probability
at least 9/100. -/
theorem C92_false_ksk_levels (G : RandSource) (hG : SeedLaw G) (level : SecurityLevel) (O : FourierOps)
    (k0 k1 : List Torus) (h0 : (paramsFor level).tlweLv0.N ≤ k0.length) (h1 : (paramsFor level).trgswLv1.N ≤ k1.length)
    (hbin : IsBinary k1) (rB : ℕ → ℕ → ℤ) :
    9 / 100 ≤ uprob fun ρ : KskIx (paramsFor level) → Int63 =>
      ∀ (schedK schedB : List ℕ) (ck : CloudKey O),
        newCloudKey (paramsFor level) O k0 k1 (keyGenRandR G (paramsFor level) (kskSeeds ρ) rB) schedK schedB
            = some (true, ck) → LeaksDifference (paramsFor level) ck.keySwitchingKey k1 := by
  have W := C63_wellFormed level
  have hK : 21504 ≤ (paramsFor level).trgswLv1.N
      * ((paramsFor level).trgswLv1.IKS_T * (2 ^ (paramsFor level).trgswLv1.BASEBIT - 1)) := by
    show 21504 ≤ (getTRGSWLv1 level).N * ((getTRGSWLv1 level).IKS_T * (2 ^ (getTRGSWLv1 level).BASEBIT - 1))
    unfold getTRGSWLv1
    split_ifs <;> decide
  generalize paramsFor level = P at *
  refine le_trans ?_ (C92_false_ksk G hG W O k0 k1 h0 h1 hbin rB _ rfl)
  generalize P.trgswLv1.N * (P.trgswLv1.IKS_T * (2 ^ P.trgswLv1.BASEBIT - 1)) = K at hK
  have hK' : (21504 : ℝ) ≤ K := by exact_mod_cast hK
  have hx : (0.1076 : ℝ) ≤ (K : ℝ) * (K - 1) / 2 ^ 32 := by
    rw [le_div_iff₀ (by positivity)]
    nlinarith
  have := exp_neg_le_inv 0.1076 (by norm_num)
  have h2 : Real.exp (-((K : ℝ) * (K - 1) / 2 ^ 32)) ≤ Real.exp (-0.1076) := Real.exp_le_exp.2 (by linarith)
  norm_num at this
  linarith

/-- **C92** at 128 bits: at least 15/100. -/
theorem C92_false_ksk_128 (G : RandSource) (hG : SeedLaw G) (O : FourierOps)
    (k0 k1 : List Torus) (h0 : 700 ≤ k0.length) (h1 : 1024 ≤ k1.length) (hbin : IsBinary k1) (rB : ℕ → ℕ → ℤ) :
    15 / 100 ≤ uprob fun ρ : KskIx (paramsFor 128) → Int63 =>
      ∀ (schedK schedB : List ℕ) (ck : CloudKey O),
        newCloudKey (paramsFor 128) O k0 k1 (keyGenRandR G (paramsFor 128) (kskSeeds ρ) rB) schedK schedB
            = some (true, ck) → LeaksDifference (paramsFor 128) ck.keySwitchingKey k1 := by
  refine le_trans ?_ (C92_false_ksk G hG (C63_wellFormed 128) O k0 k1 h0 h1 hbin rB 27648 (by decide))
  have := exp_neg_le_inv ((27648 : ℝ) * (27648 - 1) / 2 ^ 32) (by norm_num)
  push_cast
  norm_num at this ⊢
  linarith

/-! ### What remains true -/

/-- **C92**, what remains true: if the generator gives different keys for different remainders, then a list of `k`
guesses contains the secret key with probability at most `k (2^32 + 3) / 2^63`, about `k / 2^31`. Missing for the full
claim: a space of keys that cannot be searched. -/
theorem C92_guess_partial (G : RandSource) (hG : SeedLaw G) (P : Params)
    (hinj : ∀ m < seedClasses, ∀ m' < seedClasses, newSecretKeyR G P (m : ℤ) = newSecretKeyR G P (m' : ℤ) → m = m')
    (guesses : List SecretKey) :
    uprob (fun r : Int63 => ∃ sk ∈ guesses, newSecretKeyR G P r.1 = some sk)
      ≤ guesses.length * (2 ^ 32 + 3) / 2 ^ 63 := by
  classical
  unfold uprob
  have hcard : ((Fintype.card Int63 : ℕ) : ℝ) = 2 ^ 63 := by
    rw [Fintype.card_fin]
    norm_num
  rw [hcard]
  have h63 : (0 : ℝ) ≤ 2 ^ 63 := by positivity
  refine div_le_div_of_nonneg_right ?_ h63
  have one : ∀ sk, Set.ncard {r : Int63 | newSecretKeyR G P r.1 = some sk} ≤ 2 ^ 32 + 3 := by
    intro sk
    have hq : 2 ^ 63 / seedClasses + 1 = 2 ^ 32 + 3 := by unfold seedClasses; norm_num
    by_cases hex : ∃ r₀ : Int63, newSecretKeyR G P r₀.1 = some sk
    · obtain ⟨r₀, h₀⟩ := hex
      rw [← hq]
      refine le_trans ?_ (card_class_le (2 ^ 63) seedClasses (r₀.1 % seedClasses))
      rw [← Set.ncard_coe_finset]
      refine Set.ncard_le_ncard ?_ (Set.toFinite _)
      intro r hr
      have hred : ∀ r : Int63, newSecretKeyR G P r.1 = newSecretKeyR G P ((r.1 % seedClasses : ℕ) : ℤ) := by
        intro r
        refine newSecretKeyR_congr P (hG _ _ (by omega) (by omega) ?_)
        push_cast
        rw [Int.emod_emod_of_dvd _ dvd_rfl]
      have hr : newSecretKeyR G P r.1 = some sk := hr
      have := hinj _ (Nat.mod_lt r.1 seedClasses_pos) _ (Nat.mod_lt r₀.1 seedClasses_pos)
        (by rw [← hred, ← hred, hr, h₀])
      exact mem_coe.2 (mem_filter.2 ⟨mem_univ _, this⟩)
    · have : {r : Int63 | newSecretKeyR G P r.1 = some sk} = ∅ := by
        ext r
        simp only [Set.mem_empty_iff_false, iff_false]
        exact fun h => hex ⟨r, h⟩
      rw [this, Set.ncard_empty]
      omega
  have all : Set.ncard {r : Int63 | ∃ sk ∈ guesses, newSecretKeyR G P r.1 = some sk} ≤ guesses.length * (2 ^ 32 + 3) := by
    induction guesses with
    | nil => simp
    | cons a l ih =>
      have hu : {r : Int63 | ∃ sk ∈ a :: l, newSecretKeyR G P r.1 = some sk}
          = {r : Int63 | newSecretKeyR G P r.1 = some a} ∪ {r : Int63 | ∃ sk ∈ l, newSecretKeyR G P r.1 = some sk} := by
        ext r
        simp
      rw [hu, List.length_cons, Nat.add_mul, Nat.add_comm]
      exact (Set.ncard_union_le _ _).trans (by have := one a; omega)
  calc _ ≤ ((guesses.length * (2 ^ 32 + 3) : ℕ) : ℝ) := by exact_mod_cast all
    _ = _ := by push_cast; ring

theorem bitSource_after (m i : ℕ) : afterCalls bitSource.intn2 i ((m, 0) : ℕ × ℕ) = ((m, i) : ℕ × ℕ) := by
  have : ∀ i, (fun s : ℕ × ℕ => (s.1, s.2 + 1))^[i] (m, 0) = (m, i) := by
    intro i
    induction i with
    | zero => rfl
    | succ i ih => rw [Function.iterate_succ_apply', ih]
  exact this i

/-- The concrete generator gives different keys for different remainders. -/
theorem bitSource_inj (P : Params) (hn : 31 ≤ P.tlweLv0.N) (m : ℕ) (hm : m < seedClasses) (m' : ℕ) (hm' : m' < seedClasses)
    (h : newSecretKeyR bitSource P (m : ℤ) = newSecretKeyR bitSource P (m' : ℤ)) : m = m' := by
  have hs : ∀ m < seedClasses, bitSource.newSource (m : ℤ) = ((m, 0) : ℕ × ℕ) := by
    intro m hm
    show (((m : ℤ) % seedClasses).toNat, 0) = (m, 0)
    have : (m : ℤ) % seedClasses = m := by exact_mod_cast Nat.mod_eq_of_lt hm
    rw [this]
    rfl
  have hk : ∀ m < seedClasses, ∃ k1, newSecretKeyR bitSource P (m : ℤ)
      = some ⟨tab P.tlweLv0.N fun i => if m / 2 ^ i % 2 = 1 then (1 : Torus) else 0, k1⟩ := by
    intro m hm
    unfold newSecretKeyR newSecretKey
    simp only [keyLoop_eq, Option.bind_eq_bind, Option.bind_some]
    rw [hs m hm]
    have hc : (callAt bitSource.intn2 ((m, 0) : ℕ × ℕ)) = fun i => m / 2 ^ i % 2 := by
      funext i
      unfold callAt
      rw [bitSource_after]
      rfl
    rw [hc]
    exact ⟨_, rfl⟩
  obtain ⟨a, e⟩ := hk m hm
  obtain ⟨a', e'⟩ := hk m' hm'
  rw [e, e'] at h
  have h := congrArg SecretKey.keyLv0 (Option.some.inj h)
  apply Nat.eq_of_testBit_eq
  intro i
  by_cases hi : i < P.tlweLv0.N
  · have h := congrArg (fun l => at' l i) h
    simp only at h
    rw [at'_tab _ _ _ hi, at'_tab _ _ _ hi] at h
    rw [Nat.testBit_eq_decide_div_mod_eq, Nat.testBit_eq_decide_div_mod_eq]
    by_cases x : m / 2 ^ i % 2 = 1 <;> by_cases y : m' / 2 ^ i % 2 = 1 <;> simp_all
  · have hb : seedClasses ≤ 2 ^ i := by
      refine le_trans ?_ (Nat.pow_le_pow_right (by norm_num) (by omega : 31 ≤ i))
      decide
    rw [Nat.testBit_lt_two_pow (by omega), Nat.testBit_lt_two_pow (by omega)]

/-- Its keys at 128 bits: a million guesses succeed with probability at most 1/2000. -/
example (guesses : List SecretKey) (h : guesses.length = 10 ^ 6) :
    uprob (fun r : Int63 => ∃ sk ∈ guesses, newSecretKeyR bitSource (paramsFor 128) r.1 = some sk) ≤ 1 / 2000 := by
  refine (C92_guess_partial bitSource bitSource_law _ (bitSource_inj _ (lv0_ge_31 128)) guesses).trans ?_
  rw [h]
  norm_num

end GoTfhe
