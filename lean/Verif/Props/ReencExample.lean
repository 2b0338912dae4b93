import Verif.Props.ReencChainLevels
import Verif.Model.ProxyExample
import Verif.Props.NoiseProb

/-!
# C83 for `/repo/examples/proxy_reencryption`
-/

namespace GoTfhe

open MeasureTheory ProbabilityTheory Finset

/-- What the program should print: all messages, all of them counted, and the test message twice. -/
def proxySpec (messages : List Bool) (test : Bool) : ProxyOut := ⟨messages, messages.length, test, test⟩

theorem mapM_some {α β : Type} (f : α → Option β) (g : α → β) :
    ∀ l : List α, (∀ a ∈ l, f a = some (g a)) → l.mapM f = some (l.map g)
  | [], _ => rfl
  | a :: l, h => by
    rw [List.mapM_cons, h a (by simp), mapM_some f g l fun x hx => h x (by simp [hx])]
    rfl

theorem count_all {α : Type} (l : List (Bool × α)) :
    (forRange 0 l.length 0 fun i correct => do
      let original ← rd l i
      let d ← rd (l.map (·.1)) i
      pure (if original.1 = d then correct + 1 else correct)) = some l.length := by
  have : ∀ k ≤ l.length, (forRange 0 k 0 fun i correct => do
      let original ← rd l i
      let d ← rd (l.map (·.1)) i
      pure (if original.1 = d then correct + 1 else correct)) = some k := by
    intro k
    induction k with
    | zero => intro _; exact forRange_empty 0 0 le_rfl _ _
    | succ k ih =>
      intro hk
      rw [forRange_succ_right 0 k (Nat.zero_le k), ih (by omega)]
      simp [rd, List.getElem?_eq_getElem (show k < l.length by omega)]
  exact this _ le_rfl

/-- The draws and coins of a hop as the program uses them. -/
def Hop.rand {P : Params} (H : Hop) (r : HopRand P) : ProxyRand :=
  ⟨H.pdraw, pkNoise r.1, r.2.reencCoins, entryNoise r.1, H.undef⟩

theorem hop_key (P : Params) (H : Hop) (ha : H.asym = true) (keyFrom keyTo : List Torus)
    (h1 : keyFrom.length = P.tlweLv0.N) (h0 : keyTo.length = P.tlweLv0.N) (r : HopRand P) :
    ∃ pk rk, newPublicKeyLv0 P keyTo (H.rand r).pdraw (H.rand r).psample = some pk ∧
      newReencKeyAsymDefault P keyFrom pk (H.rand r).coins (H.rand r).sample (H.rand r).undef = some rk ∧
      ∀ ct, H.run P keyFrom keyTo r ct = reencrypt P ct rk := by
  obtain ⟨pk, epk, -, hr, -⟩ := newPublicKey_spec P keyTo (P.tlweLv0.N * 2) H.pdraw (pkNoise r.1) h0.ge
  obtain ⟨rk, e, -⟩ := C60_asymmetric P keyFrom keyTo pk P.trgswLv1.BASEBIT P.trgswLv1.IKS_T r.2.reencCoins
    (entryNoise r.1) H.undef h1.ge hr
  refine ⟨pk, rk, epk, e, fun ct => ?_⟩
  unfold Hop.run newReencKeyAsymDefault newPublicKeyLv0
  rw [if_pos ha, epk, Option.bind_eq_bind, Option.bind_eq_bind, Option.bind_some, e, Option.bind_some]

/-- Alice, then Bob, then Carol. -/
def threeKeys (alice bob carol : List Torus) : ℕ → List Torus
  | 0 => alice
  | 1 => bob
  | _ => carol

/-- The program is right if one hop is for every message and for the test message, and two hops are for the latter. -/
theorem proxyExample_ok (P : Params) (H : ℕ → Hop) (ha : ∀ i, (H i).asym = true) (alice bob carol : List Torus)
    (h1 : alice.length = P.tlweLv0.N) (h2 : bob.length = P.tlweLv0.N) (h3 : carol.length = P.tlweLv0.N)
    (messages : List (Bool × (ℕ → Torus) × ℚ)) (test : Bool × (ℕ → Torus) × ℚ) (r : Fin 2 → HopRand P)
    (c : Bool × (ℕ → Torus) × ℚ → List Torus)
    (hc : ∀ m, tlwe0EncryptBool P (newTLWELv0 P) m.1 alice m.2.1 m.2.2 = some (c m))
    (one : ∀ m, m ∈ test :: messages → (runChain P H (threeKeys alice bob carol) (c m) 1 fun i => r i.castSucc).bind
      (fun c => tlwe0DecryptBool P c bob) = some m.1)
    (two : (runChain P H (threeKeys alice bob carol) (c test) 2 r).bind (fun c => tlwe0DecryptBool P c carol) = some test.1) :
    proxyExample P alice bob carol messages test ((H 0).rand (r 0)) ((H 1).rand (r 1))
      = some (proxySpec (messages.map (·.1)) test.1) := by
  obtain ⟨pk, rk, epk, erk, hrk⟩ := hop_key P (H 0) (ha 0) alice bob h1 h2 (r 0)
  obtain ⟨pk', rk', epk', erk', hrk'⟩ := hop_key P (H 1) (ha 1) bob carol h2 h3 (r 1)
  have one' : ∀ m, m ∈ test :: messages → (reencrypt P (c m) rk).bind (fun c => tlwe0DecryptBool P c bob) = some m.1 := by
    intro m hm
    rw [← hrk]
    exact one m hm
  have two' : ((reencrypt P (c test) rk).bind fun x => reencrypt P x rk').bind (fun c => tlwe0DecryptBool P c carol)
      = some test.1 := by
    rw [← hrk, ← funext hrk']
    exact two
  have hd : ∀ m, m ∈ test :: messages → ∃ d, reencrypt P (c m) rk = some d ∧ tlwe0DecryptBool P d bob = some m.1 :=
    fun m hm => Option.bind_eq_some_iff.1 (one' m hm)
  obtain ⟨d, ed, eb⟩ := hd test (by simp)
  rw [ed, Option.bind_some] at two'
  obtain ⟨d', ed', eb'⟩ := Option.bind_eq_some_iff.1 two'
  have m1 : messages.mapM (fun m => tlwe0EncryptBool P (newTLWELv0 P) m.1 alice m.2.1 m.2.2) = some (messages.map c) :=
    mapM_some _ _ _ fun m _ => hc m
  have m2 : (messages.map c).mapM (fun ct => reencrypt P ct rk)
      = some ((messages.map c).map fun ct => (reencrypt P ct rk).getD []) := by
    refine mapM_some _ _ _ fun ct hct => ?_
    obtain ⟨m, hm, rfl⟩ := List.mem_map.1 hct
    obtain ⟨d, e, -⟩ := hd m (by simp [hm])
    rw [e]
    rfl
  have m3 : ((messages.map c).map fun ct => (reencrypt P ct rk).getD []).mapM (fun ct => tlwe0DecryptBool P ct bob)
      = some (messages.map (·.1)) := by
    rw [mapM_some _ (fun ct => (tlwe0DecryptBool P ct bob).getD false)]
    · rw [List.map_map, List.map_map]
      refine congrArg some (List.map_congr_left fun m hm => ?_)
      obtain ⟨d, e, e'⟩ := hd m (by simp [hm])
      simp [e, e']
    · intro x hx
      rw [List.map_map] at hx
      obtain ⟨m, hm, rfl⟩ := List.mem_map.1 hx
      obtain ⟨d, e, e'⟩ := hd m (by simp [hm])
      simp [e, e']
  have cnt := count_all messages
  have hct := hc test
  simp only [Option.bind_eq_bind] at cnt
  unfold proxyExample
  simp only [epk, epk', erk, erk', m1, m2, m3, cnt, hct, ed, ed', eb, eb', Option.bind_eq_bind, Option.bind_some]
  unfold proxySpec
  rw [List.length_map]
  rfl

section

variable {Ω : Type} [MeasurableSpace Ω] {μ : Measure Ω} [IsProbabilityMeasure μ]
  {Ω' : Type} [MeasurableSpace Ω'] {μ' : Measure Ω'} [IsProbabilityMeasure μ']

/-- A product of a space that is seldom bad with one where the event is rare unless it is. -/
theorem prod_rare {X : Type} [MeasurableSpace X] {ν : Measure X} [IsProbabilityMeasure ν] (S : Set (Ω × X))
    (hS : MeasurableSet S) (Bad : Set Ω) (a p : ENNReal) (hB : μ Bad ≤ a) (h : ∀ ω ∉ Bad, ν (Prod.mk ω ⁻¹' S) ≤ p) :
    (μ.prod ν) S ≤ a + p := by
  rw [Measure.prod_apply hS]
  set B' := toMeasurable μ Bad
  have hB' : MeasurableSet B' := measurableSet_toMeasurable μ Bad
  have : ∀ ω, ν (Prod.mk ω ⁻¹' S) ≤ B'.indicator (fun _ => 1) ω + p := by
    intro ω
    by_cases hω : ω ∈ Bad
    · rw [Set.indicator_of_mem (subset_toMeasurable μ Bad hω)]
      exact prob_le_one.trans le_self_add
    · exact (h ω hω).trans le_add_self
  refine (lintegral_mono this).trans ?_
  rw [lintegral_add_right _ measurable_const, lintegral_indicator_const hB', lintegral_const, measure_univ, mul_one, one_mul,
    measure_toMeasurable]
  exact add_le_add_left hB _

/-- The fresh ciphertext of a bit. -/
theorem fresh_bool (P : Params) (key : List Torus) (hk : key.length = P.tlweLv0.N) (m : Bool) (draw : ℕ → Torus)
    (s : ℚ) : ∃ ct, tlwe0EncryptBool P (newTLWELv0 P) m key draw s = some ct ∧ ct.length = P.tlweLv0.N + 1 ∧
      phase P.tlweLv0.N ct key = BitVec.ofInt 32 (boolPhase m + (f64ToTorus s).toInt) := by
  obtain ⟨ct, e, hl, -, hp⟩ := tlwe0EncryptF64_eq P (newTLWELv0 P) key (if m then 0.125 else -0.125) draw s hk.ge
    (by simp [newTLWELv0])
  refine ⟨ct, e, by rw [hl]; simp [newTLWELv0], ?_⟩
  rw [hp, ← cast_int_eq, Int.cast_add, cast_toInt32, cast_int_eq, ← boolPhase_word]
  congr 1
  cases m <;> decide +kernel

/-- **C83**, the example: at a level where one asymmetric hop fails with probability at most `δ₁` and two with at most
`δ₂`, the program prints what it should, except with probability `(k + 1) (2^-1000 + δ₁) + δ₂` for `k` messages. -/
theorem C83_example (level : SecurityLevel) (δ₁ δ₂ : ℝ) (hδ₁ : ChainReliable level 1 1 (2 ^ 23) δ₁)
    (hδ₂ : ChainReliable level 2 2 (2 ^ 23) δ₂)
    (hα : (1001 : ℚ) * 0.6931471808 * (2 * (2 ^ 32 * kskAlpha (paramsFor level)) ^ 2) ≤ (2 ^ 23) ^ 2)
    (alice bob carol : List Torus) (h1 : alice.length = (paramsFor level).tlweLv0.N)
    (h2 : bob.length = (paramsFor level).tlweLv0.N) (h3 : carol.length = (paramsFor level).tlweLv0.N)
    (b1 : IsBinary alice) (b2 : IsBinary bob) (b3 : IsBinary carol)
    (H : ℕ → Hop) (ha : ∀ i, (H i).asym = true)
    {k : ℕ} (messages : Fin k → Bool) (test : Bool) (cdraw : Fin (k + 1) → ℕ → Torus)
    {q' : Fin (k + 1) → Ω' → ℚ} (hq' : NoiseDraws μ' q' (fun _ => ((kskAlpha (paramsFor level) : ℚ) : ℝ)))
    {q : HopIx (paramsFor level) → Ω → ℚ} (hq : NoiseDraws μ q (fun _ => ((kskAlpha (paramsFor level) : ℚ) : ℝ))) :
    (μ'.prod (Measure.pi fun _ : Fin 2 => μ.prod (uniformOn (Set.univ : Set (ReencTape (paramsFor level))))))
        {x | proxyExample (paramsFor level) alice bob carol
            (List.ofFn fun i : Fin k => (messages i, cdraw i.castSucc, q' i.castSucc x.1))
            (test, cdraw (Fin.last k), q' (Fin.last k) x.1)
            ((H 0).rand (hopRand q x.2 0)) ((H 1).rand (hopRand q x.2 1)) ≠ some (proxySpec (List.ofFn messages) test)}
      ≤ (k + 1) * (ENNReal.ofReal (1 / 2 ^ 1000) + ENNReal.ofReal δ₁) + ENNReal.ofReal δ₂ := by
  set bits : Fin (k + 1) → Bool := Fin.snoc (α := fun _ => Bool) messages test with hbits
  have hb1 : ∀ i : Fin k, bits i.castSucc = messages i := fun i => by rw [hbits, Fin.snoc_castSucc]
  have hb2 : bits (Fin.last k) = test := by rw [hbits, Fin.snoc_last]
  set F : (Fin (k + 1) → ℚ) × (Fin 2 → HopRand (paramsFor level)) → Option ProxyOut := fun y => proxyExample (paramsFor level) alice bob carol
    (List.ofFn fun i : Fin k => (messages i, cdraw i.castSucc, y.1 i.castSucc)) (test, cdraw (Fin.last k), y.1 (Fin.last k))
    ((H 0).rand (y.2 0)) ((H 1).rand (y.2 1)) with hF
  have hmeas : MeasurableSet {x : Ω' × (Fin 2 → Ω × ReencTape (paramsFor level)) |
      F (fun i => q' i x.1, hopRand q x.2) ≠ some (proxySpec (List.ofFn messages) test)} := by
    have hm : Measurable fun x : Ω' × (Fin 2 → Ω × ReencTape (paramsFor level)) => ((fun i => q' i x.1, hopRand q x.2) :
        (Fin (k + 1) → ℚ) × (Fin 2 → HopRand (paramsFor level))) :=
      Measurable.prodMk (measurable_pi_lambda _ fun i => (hq'.measurable i).comp measurable_fst)
        ((measurable_hopRand hq.measurable 2).comp measurable_snd)
    exact hm (Set.to_countable {y | F y ≠ some (proxySpec (List.ofFn messages) test)}).measurableSet
  have hbad : μ' (⋃ i : Fin (k + 1), {ω | 2 ^ 23 ≤ nrm (f64ToTorus (q' i ω))})
      ≤ (k + 1) * ENNReal.ofReal (1 / 2 ^ 1000) := by
    refine (measure_iUnion_fintype_le _ _).trans ?_
    have hp : (0 : ℝ) < ((kskAlpha (paramsFor level) : ℚ) : ℝ) := by exact_mod_cast (alpha_levels level).1.1
    have : ∀ i : Fin (k + 1), μ' {ω | 2 ^ 23 ≤ nrm (f64ToTorus (q' i ω))} ≤ ENNReal.ofReal (1 / 2 ^ 1000) := by
      intro i
      refine (C79_draw hq' i hp (2 ^ 23)).trans (ENNReal.ofReal_le_ofReal (two_exp_le_div (by positivity) ?_))
      have h' : (((1001 * 0.6931471808 * (2 * (2 ^ 32 * kskAlpha (paramsFor level)) ^ 2) : ℚ)) : ℝ) ≤ (((2 ^ 23) ^ 2 : ℚ) : ℝ) := by
        exact_mod_cast hα
      push_cast at h' ⊢
      norm_num at h' ⊢
      exact h'
    refine (sum_le_sum fun i _ => this i).trans (le_of_eq ?_)
    rw [sum_const, card_univ, Fintype.card_fin, nsmul_eq_mul]
    push_cast
    rfl
  refine (prod_rare _ hmeas _ _ ((k + 1) * ENNReal.ofReal δ₁ + ENNReal.ofReal δ₂) hbad ?_).trans (le_of_eq (by rw [mul_add, add_assoc]))
  intro ω hω
  have hω' : ∀ i : Fin (k + 1), nrm (f64ToTorus (q' i ω)) < 2 ^ 23 := by
    intro i
    by_contra hc
    exact hω (Set.mem_iUnion.2 ⟨i, not_lt.1 hc⟩)
  choose c hc hlen hph using fun m : Bool × (ℕ → Torus) × ℚ => fresh_bool (paramsFor level) alice h1 m.1 m.2.1 m.2.2
  set keys := threeKeys alice bob carol with hkeys
  have klen : ∀ i, (keys i).length = (paramsFor level).tlweLv0.N := by
    intro i
    match i with
    | 0 => exact h1
    | 1 => exact h2
    | _ + 2 => exact h3
  have kbin : ∀ i, IsBinary (keys i) := by
    intro i
    match i with
    | 0 => exact b1
    | 1 => exact b2
    | _ + 2 => exact b3
  have hcard : ∀ h, asymHops H h ≤ h := fun h => by
    unfold asymHops
    exact (card_filter_le _ _).trans (by rw [card_range])
  have he : ∀ i, |(f64ToTorus (q' i ω)).toInt| ≤ ((2 ^ 23 : ℕ) : ℤ) := by
    intro i
    have := hω' i
    unfold nrm at this
    rw [Int.abs_eq_natAbs]
    exact_mod_cast this.le
  set mm : Fin (k + 1) → Bool × (ℕ → Torus) × ℚ := fun i => (bits i, cdraw i, q' i ω) with hmm
  have e1 : ∀ i, (Measure.pi fun _ : Fin 2 => μ.prod (uniformOn (Set.univ : Set (ReencTape (paramsFor level)))))
      {x | (runChain (paramsFor level) H keys (c (mm i)) 1 fun j => hopRand q x j.castSucc).bind (fun c => tlwe0DecryptBool (paramsFor level) c bob)
        ≠ some (bits i)} ≤ ENNReal.ofReal δ₁ := by
    intro i
    have h := hδ₁ Ω μ q hq H keys klen kbin (c (mm i)) (hlen _) (bits i) _ (he i) (hph _) 1 le_rfl (hcard 1)
    have mp := (measurePreserving_piFinSuccAbove
      (fun _ : Fin 2 => μ.prod (uniformOn (Set.univ : Set (ReencTape (paramsFor level))))) (Fin.last 1))
    have mp2 := (measurePreserving_snd (μ := μ.prod (uniformOn (Set.univ : Set (ReencTape (paramsFor level)))))
      (ν := Measure.pi fun _ : Fin 1 => μ.prod (uniformOn (Set.univ : Set (ReencTape (paramsFor level)))))).comp mp
    refine le_trans ?_ h
    rw [← mp2.map_eq]
    refine le_trans (measure_mono ?_) (Measure.le_map_apply mp2.measurable.aemeasurable _)
    intro x hx
    exact hx
  have e2 := hδ₂ Ω μ q hq H keys klen kbin (c (mm (Fin.last k))) (hlen _) (bits (Fin.last k)) _ (he _) (hph _) 2 le_rfl
    (hcard 2)
  refine le_trans (measure_mono (t := (⋃ i, _) ∪ _) ?_) ((measure_union_le _ _).trans (add_le_add
    ((measure_iUnion_fintype_le _ _).trans ((sum_le_sum fun i _ => e1 i).trans (le_of_eq ?_))) e2))
  · intro x hx
    by_contra hn
    rw [Set.mem_union, not_or, Set.mem_iUnion, not_exists] at hn
    obtain ⟨n1, n2⟩ := hn
    have n1' : ∀ i, (runChain (paramsFor level) H keys (c (mm i)) 1 fun j => hopRand q x j.castSucc).bind
        (fun c => tlwe0DecryptBool (paramsFor level) c bob) = some (bits i) := fun i => not_not.1 (n1 i)
    apply hx
    have key := proxyExample_ok (paramsFor level) H ha alice bob carol h1 h2 h3 (List.ofFn fun i : Fin k => mm i.castSucc) (mm (Fin.last k))
      (hopRand q x) c hc (fun m hm => by
        rcases List.mem_cons.1 hm with rfl | hm
        · exact n1' _
        · obtain ⟨i, rfl⟩ := List.mem_ofFn.1 hm
          exact n1' _) (not_not.1 n2)
    rw [List.map_ofFn] at key
    simp only [hmm, hb1, hb2, Function.comp_def] at key
    exact key
  · rw [sum_const, card_univ, Fintype.card_fin, nsmul_eq_mul]
    push_cast
    rfl

/-- **C83**, the example as it stands: at the default level its five messages reach Bob and its test message reaches Bob and
Carol, with probability at least three in four, whatever the secret keys and the masks. -/
theorem C83_example_128 (alice bob carol : List Torus) (h1 : alice.length = 700) (h2 : bob.length = 700)
    (h3 : carol.length = 700) (b1 : IsBinary alice) (b2 : IsBinary bob) (b3 : IsBinary carol)
    (H : ℕ → Hop) (ha : ∀ i, (H i).asym = true) (cdraw : Fin 6 → ℕ → Torus)
    {q' : Fin 6 → Ω' → ℚ} (hq' : NoiseDraws μ' q' (fun _ => ((kskAlpha (paramsFor 128) : ℚ) : ℝ)))
    {q : HopIx (paramsFor 128) → Ω → ℚ} (hq : NoiseDraws μ q (fun _ => ((kskAlpha (paramsFor 128) : ℚ) : ℝ))) :
    (μ'.prod (Measure.pi fun _ : Fin 2 => μ.prod (uniformOn (Set.univ : Set (ReencTape (paramsFor 128))))))
        {x | proxyExample (paramsFor 128) alice bob carol
            (List.ofFn fun i : Fin 5 => (![true, false, true, true, false] i, cdraw i.castSucc, q' i.castSucc x.1))
            (true, cdraw 5, q' 5 x.1) ((H 0).rand (hopRand q x.2 0)) ((H 1).rand (hopRand q x.2 1))
          ≠ some ⟨[true, false, true, true, false], 5, true, true⟩}
      ≤ ENNReal.ofReal (1 / 4) := by
  have r1 : ChainReliable 128 1 1 (2 ^ 23) (1 / 64) := by
    have := C83_levels (128, 1, 1, 1 / 64) (by simp [chainTable])
    norm_num at this ⊢
    exact this
  have r2 : ChainReliable 128 2 2 (2 ^ 23) (1 / 7) := by
    have := C83_levels (128, 2, 2, 1 / 7) (by simp [chainTable])
    norm_num at this ⊢
    exact this
  refine (C83_example 128 (1 / 64) (1 / 7) r1 r2 (by decide +kernel) alice bob carol h1 h2 h3 b1 b2 b3 H ha
    ![true, false, true, true, false] true cdraw hq' hq).trans ?_
  have : ENNReal.ofReal (1 / 2 ^ 1000) ≤ ENNReal.ofReal (1 / 1000) := by
    refine ENNReal.ofReal_le_ofReal (one_div_le_one_div_of_le (by norm_num) ?_)
    calc (1000 : ℝ) ≤ 2 ^ 10 := by norm_num
      _ ≤ 2 ^ 1000 := pow_le_pow_right₀ (by norm_num) (by norm_num)
  refine (add_le_add_left (mul_le_mul_right (add_le_add_left this _) _) _).trans ?_
  rw [← ENNReal.ofReal_add (by norm_num) (by norm_num), show ((5 : ℕ) : ENNReal) + 1 = ENNReal.ofReal 6 by norm_num,
    ← ENNReal.ofReal_mul (by norm_num), ← ENNReal.ofReal_add (by norm_num) (by norm_num)]
  exact ENNReal.ofReal_le_ofReal (by norm_num)

end

/-- C83 at 128 bits for three asymmetric hops between users with the same key, with normal noise cut to 60 standard
deviations, from an encryption of `true`. -/
example : ∃ ct, tlwe0EncryptBool (paramsFor 128) (newTLWELv0 (paramsFor 128)) true (onesThird 700)
      (fun i => BitVec.ofNat 32 (i * 40503)) 0 = some ct ∧
    (Measure.pi fun _ : Fin 3 => (normals (fun _ : HopIx (paramsFor 128) => ((kskAlpha (paramsFor 128) : ℚ) : ℝ))).prod
      (uniformOn (Set.univ : Set (ReencTape (paramsFor 128)))))
    {x | (runChain (paramsFor 128) (fun _ => ⟨true, fun e i => BitVec.ofNat 32 (e * 977 + i * 2654435761), fun _ _ _ _ => 0,
        fun _ _ _ => 0⟩) (fun _ => onesThird 700) ct 3
        (hopRand (fun i => cutNormal 60 i) x)).bind (fun c => tlwe0DecryptBool (paramsFor 128) c (onesThird 700))
      ≠ some true} ≤ ENNReal.ofReal (3 / 10) := by
  have h := C83_levels (128, 3, 3, 3 / 10) (by simp [chainTable])
  obtain ⟨ct, e, hl, hp⟩ := fresh_bool (paramsFor 128) (onesThird 700) (length_onesThird 700) true
    (fun i => BitVec.ofNat 32 (i * 40503)) 0
  have h' := h _ _ _ (noiseDraws_normal (fun _ : HopIx (paramsFor 128) => ((kskAlpha (paramsFor 128) : ℚ) : ℝ)) 60)
    (fun _ => ⟨true, fun e i => BitVec.ofNat 32 (e * 977 + i * 2654435761), fun _ _ _ _ => 0, fun _ _ _ => 0⟩)
    (fun _ => onesThird 700) (fun _ => length_onesThird 700) (fun _ => isBinary_onesThird 700)
    ct hl true _ (by decide +kernel) hp 3 le_rfl (by simp [asymHops])
  rw [show (((128, 3, 3, 3 / 10) : ℤ × ℕ × ℕ × ℚ).2.2.2 : ℝ) = 3 / 10 by norm_num] at h'
  exact ⟨ct, e, h'⟩

end GoTfhe
