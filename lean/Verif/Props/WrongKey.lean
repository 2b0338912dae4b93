import Verif.Props.Hiding
import Verif.Props.ProxyReenc
import Verif.Lemmas.LweMessage

/-!
# Reading with the wrong key, and re-encrypting in the wrong direction (C84)

Over a uniform mask a fresh ciphertext read with a key other than the one it was made with is a uniform word; so
`DecryptBool` is an exact coin flip and `DecryptLWEMessage` an exact draw of a message. A re-encryption key from `A` to
`B` applied to a ciphertext under a key other than `A` gives a coin flip up to the noise of one position of the key.
-/

namespace GoTfhe

open Finset

/-- The scalar product of a mask with given words. -/
def maskHom {n : ℕ} (d : Fin n → Torus) : Mask n →+ Torus where
  toFun a := ∑ i, BitVec.ofFin (a i) * d i
  map_zero' := sum_eq_zero fun i _ => by
    show (0 : Torus) * d i = 0
    ring
  map_add' a b := by
    rw [← sum_add_distrib]
    refine sum_congr rfl fun i _ => ?_
    show (BitVec.ofFin (a i) + BitVec.ofFin (b i)) * d i = _
    ring

theorem maskHom_update {n : ℕ} (d : Fin n → Torus) (a : Mask n) (i : Fin n) (x : Fin (2 ^ 32)) :
    maskHom d (Function.update a i x) = maskHom d (Function.update a i 0) + BitVec.ofFin x * d i := by
  show ∑ l : Fin n, BitVec.ofFin (Function.update a i x l) * d l
    = ∑ l : Fin n, BitVec.ofFin (Function.update a i 0 l) * d l + _
  rw [← add_sum_erase _ _ (mem_univ i), ← add_sum_erase _ (fun l => BitVec.ofFin (Function.update a i 0 l) * d l)
    (mem_univ i)]
  have e : ∑ l ∈ univ.erase i, BitVec.ofFin (Function.update a i x l) * d l
      = ∑ l ∈ univ.erase i, BitVec.ofFin (Function.update a i 0 l) * d l := by
    refine sum_congr rfl fun l hl => ?_
    rw [Function.update_of_ne (ne_of_mem_erase hl), Function.update_of_ne (ne_of_mem_erase hl)]
  rw [e]
  simp only [Function.update_self]
  have : (BitVec.ofFin (0 : Fin (2 ^ 32)) : Torus) = 0 := rfl
  rw [this]
  ring

theorem maskHom_surj {n : ℕ} (d : Fin n → Torus) (i : Fin n) (h : d i = 1 ∨ d i = -1) :
    Function.Surjective (maskHom d) := by
  intro g
  refine ⟨Function.update 0 i (g * d i).toFin, ?_⟩
  rw [maskHom_update]
  have e : Function.update (0 : Mask n) i 0 = 0 := Function.update_eq_self i (0 : Mask n)
  rw [e, map_zero, zero_add]
  show g * d i * d i = g
  rcases h with h | h <;> rw [h] <;> ring

/-- All the fibres of a homomorphism onto `G` have the same number of elements. -/
theorem card_fiber_mul {A G : Type*} [AddCommGroup A] [Fintype A] [AddCommGroup G] [Fintype G] [DecidableEq G]
    (f : A →+ G) (hf : Function.Surjective f) (g : G) :
    (Finset.univ.filter fun a => f a = g).card * Fintype.card G = Fintype.card A := by
  obtain ⟨a0, h0⟩ := hf g
  rw [← card_ker_mul f hf]
  congr 1
  refine Finset.card_bij (fun a _ => a - a0) ?_ ?_ ?_
  · intro a ha
    simp only [mem_filter, mem_univ, true_and] at ha ⊢
    rw [map_sub, ha, h0, sub_self]
  · intro a _ b _ h
    simpa using h
  · intro b hb
    simp only [mem_filter, mem_univ, true_and] at hb
    refine ⟨b + a0, ?_, by simp⟩
    simp only [mem_filter, mem_univ, true_and]
    rw [map_add, hb, h0, zero_add]

theorem uprob_eq {Ω : Type*} [Fintype Ω] (E : Ω → Prop) [DecidablePred E] :
    uprob E = ((univ.filter E).card : ℝ) / Fintype.card Ω := by
  unfold uprob
  rw [Set.ncard_eq_toFinset_card', Set.toFinset_setOf]

/-- The image of a uniform element under a homomorphism onto `G` is uniform. -/
theorem uprob_hom {A G : Type*} [AddCommGroup A] [Fintype A] [AddCommGroup G] [Fintype G]
    (f : A →+ G) (hf : Function.Surjective f) (E : G → Prop) :
    uprob (fun a => E (f a)) = uprob E := by
  classical
  rw [uprob_eq, uprob_eq, div_eq_div_iff (by exact_mod_cast Fintype.card_ne_zero)
    (by exact_mod_cast Fintype.card_ne_zero)]
  have h : (univ.filter fun a => E (f a)).card = ∑ g ∈ univ.filter E, (univ.filter fun a => f a = g).card := by
    rw [card_eq_sum_card_fiberwise (t := univ.filter E) (f := f)]
    · refine sum_congr rfl fun g hg => ?_
      congr 1
      ext a
      simp only [mem_filter, mem_univ, true_and] at hg ⊢
      constructor
      · exact fun h => h.2
      · rintro rfl; exact ⟨hg, rfl⟩
    · intro a ha
      simpa using ha
  have h2 : (univ.filter fun a => E (f a)).card * Fintype.card G = (univ.filter E).card * Fintype.card A := by
    rw [h, sum_mul, sum_congr rfl fun g _ => card_fiber_mul f hf g, sum_const, smul_eq_mul]
  exact_mod_cast h2

/-- Two binary keys of which one position differs. -/
theorem keys_differ (n : ℕ) (s s' : List Torus) (hs : IsBinary s) (hs' : IsBinary s') (hl : s.length = n)
    (hl' : s'.length = n) (hne : s ≠ s') : ∃ i : Fin n, at' s i - at' s' i = 1 ∨ at' s i - at' s' i = -1 := by
  by_contra hcon
  push Not at hcon
  apply hne
  apply ext_at' (by omega)
  intro i hi
  have h1 := hcon ⟨i, by omega⟩
  rcases isBinary_at' hs i with a | a <;> rcases isBinary_at' hs' i with b | b <;> simp only [a, b] at h1 ⊢
  · exact absurd rfl (h1.2 : ((0 : Torus) - 1) ≠ -1)
  · exact absurd rfl (h1.1 : ((1 : Torus) - 0) ≠ 1)

/-- The phase under another key. -/
theorem phase_other (n : ℕ) (s s' : List Torus) (c : List Torus) (a : Mask n) (m : Torus)
    (hm : ∀ i < n, at' c i = a.draw i) (hp : phase n c s = m) :
    phase n c s' = m + maskHom (fun i => at' s i - at' s' i) a := by
  have e : maskHom (fun i : Fin n => at' s i - at' s' i) a
      = ∑ i ∈ range n, at' c i * at' s i - ∑ i ∈ range n, at' c i * at' s' i := by
    rw [← sum_sub_distrib, Finset.sum_range]
    show ∑ i : Fin n, BitVec.ofFin (a i) * (at' s i - at' s' i) = _
    refine sum_congr rfl fun i _ => ?_
    rw [hm i i.2, Mask.draw, dif_pos i.2]
    ring
  rw [e, ← hp]
  unfold phase
  ring

theorem uprob_congr {Ω : Type*} [Fintype Ω] {E F : Ω → Prop} (h : ∀ x, E x ↔ F x) : uprob E = uprob F := by
  unfold uprob
  simp only [h]

theorem uprob_equiv {Ω Ω' : Type*} [Fintype Ω] [Fintype Ω'] (σ : Ω ≃ Ω') (E : Ω' → Prop) :
    uprob (fun x => E (σ x)) = uprob E := by
  unfold uprob
  rw [Fintype.card_congr σ]
  congr 2
  rw [← Set.ncard_image_of_injective {x | E (σ x)} σ.injective]
  congr 1
  ext y
  simp only [Set.mem_image, Set.mem_setOf_eq]
  constructor
  · rintro ⟨x, h, rfl⟩; exact h
  · intro h; exact ⟨σ.symm y, by simpa using h, by simp⟩

theorem uprob_add (v : Torus) (E : Torus → Prop) : uprob (fun x => E (v + x)) = uprob E :=
  uprob_equiv (Equiv.addLeft v) E

/-- **C84**: a fresh ciphertext read with a key different from its own is a uniform word over the choice of the mask,
whatever is encrypted and with whatever noise. -/
theorem C84_uniform (P : Params) (key key' : List Torus) (hb : IsBinary key) (hb' : IsBinary key')
    (hl : key.length = P.tlweLv0.N) (hl' : key'.length = P.tlweLv0.N) (hne : key ≠ key') (p e : ℚ)
    (E : Torus → Prop) :
    uprob (fun a : Mask P.tlweLv0.N => ∃ c, tlwe0EncryptF64 P (newTLWELv0 P) p key a.draw e = some c ∧
      E (phase P.tlweLv0.N c key')) = uprob E := by
  obtain ⟨i, hi⟩ := keys_differ P.tlweLv0.N key key' hb hb' hl hl' hne
  rw [← uprob_add (f64ToTorus p + f64ToTorus e) E,
    ← uprob_hom _ (maskHom_surj (fun i => at' key i - at' key' i) i hi)
      fun x => E (f64ToTorus p + f64ToTorus e + x)]
  apply uprob_congr
  intro a
  obtain ⟨c, h, -, hm, hp⟩ := tlwe0EncryptF64_eq P (newTLWELv0 P) key p a.draw e hl.ge (by simp [newTLWELv0])
  rw [h, ← phase_other P.tlweLv0.N key key' c a _ hm hp]
  simp

theorem uprob_fin (E : Torus → Prop) : uprob (fun x : Fin (2 ^ 32) => E (BitVec.ofFin x)) = uprob E :=
  uprob_equiv ⟨BitVec.ofFin, BitVec.toFin, fun _ => rfl, fun _ => rfl⟩ E

theorem uprob_not {Ω : Type*} [Fintype Ω] [Nonempty Ω] (E : Ω → Prop) : uprob (fun x => ¬ E x) = 1 - uprob E := by
  classical
  rw [uprob_eq, uprob_eq, eq_sub_iff_add_eq, ← add_div, div_eq_one_iff_eq (by exact_mod_cast Fintype.card_ne_zero),
    add_comm]
  exact_mod_cast Finset.card_filter_add_card_filter_not (s := (univ : Finset Ω)) E

theorem uprob_lt (K M : ℕ) (h : M ≤ K) : uprob (fun x : Fin K => (x : ℕ) < M) = M / K := by
  classical
  rw [uprob_eq, Fintype.card_fin, Fin.card_filter_val_lt, min_eq_right h]

/-- Half of the words are non-negative. -/
theorem uprob_sign (b : Bool) : uprob (fun x : Torus => decide (0 ≤ x.toInt) = b) = 1 / 2 := by
  have h0 : uprob (fun x : Torus => 0 ≤ x.toInt) = 1 / 2 := by
    rw [← uprob_fin]
    have h1 : ∀ x : Fin (2 ^ 32), (0 ≤ (BitVec.ofFin x : Torus).toInt) ↔ (x : ℕ) < 2147483648 := by
      intro x
      rw [BitVec.toInt_eq_toNat_cond]
      have : (BitVec.ofFin x : Torus).toNat = x := rfl
      rw [this]
      have := x.2
      split_ifs <;> omega
    rw [uprob_congr h1, uprob_lt _ _ (by norm_num)]
    norm_num
  cases b
  · simp only [decide_eq_false_iff_not]
    rw [uprob_not, h0]
    norm_num
  · simpa only [decide_eq_true_eq] using h0

/-- **C84** for Booleans at level 0: read with another key, a fresh encryption of either bit decrypts to `true` for
exactly half of the masks. -/
theorem C84_bool (P : Params) (key key' : List Torus) (hb : IsBinary key) (hb' : IsBinary key')
    (hl : key.length = P.tlweLv0.N) (hl' : key'.length = P.tlweLv0.N) (hne : key ≠ key') (m out : Bool) (e : ℚ) :
    uprob (fun a : Mask P.tlweLv0.N =>
      (tlwe0EncryptBool P (newTLWELv0 P) m key a.draw e).bind (fun c => tlwe0DecryptBool P c key') = some out)
      = 1 / 2 := by
  rw [← uprob_sign out, ← C84_uniform P key key' hb hb' hl hl' hne (if m then 0.125 else -0.125) e]
  apply uprob_congr
  intro a
  obtain ⟨c, h, hlc, -, -⟩ := tlwe0EncryptF64_eq P (newTLWELv0 P) key (if m then 0.125 else -0.125) a.draw e hl.ge
    (by simp [newTLWELv0])
  unfold tlwe0EncryptBool
  simp only [h, Option.bind_some, Option.some.injEq, exists_eq_left']
  rw [tlwe0DecryptBool_eq P c key' hl'.ge (by rw [hlc]; simp [newTLWELv0])]
  simp

/-- **C84** for messages: with any modulus, the probability of a result is the share of words decoding to it. -/
theorem C84_message (fl : ℚ → ℚ) (P : Params) (key key' : List Torus) (hb : IsBinary key) (hb' : IsBinary key')
    (hl : key.length = P.tlweLv0.N) (hl' : key'.length = P.tlweLv0.N) (hne : key ≠ key') (msg : ℤ) (m : ℕ)
    (hm : 1 ≤ m) (hm2 : m ≤ 2 ^ 31) (e : ℚ) (r : ℕ) :
    uprob (fun a : Mask P.tlweLv0.N =>
      (encryptLWEMessage fl P (newTLWELv0 P) msg m key a.draw e).bind (fun c => decryptLWEMessage P c m key')
        = some (r : ℤ)) = uprob (fun x : Torus => decodeMsg m x = r) := by
  have h := encryptLWEMessage_eq fl P (newTLWELv0 P) key msg m hm
  obtain ⟨i, hi⟩ := keys_differ P.tlweLv0.N key key' hb hb' hl hl' hne
  set v := f64ToTorus (fl (((msg % m : ℤ) : ℚ) * fl ((2 ^ 31 : ℚ) / ((m : ℤ) : ℚ))) / 2 ^ 32) + f64ToTorus e with hv
  rw [← uprob_add v, ← uprob_hom _ (maskHom_surj (fun i => at' key i - at' key' i) i hi)
      fun x => decodeMsg m (v + x) = r]
  apply uprob_congr
  intro a
  obtain ⟨c, h, hlc, hma, hp⟩ := h a.draw e hl.ge (by simp [newTLWELv0])
  simp only [h, Option.bind_some]
  rw [decryptLWEMessage_eq P c key' m hm hm2 hl'.ge (by rw [hlc]; simp [newTLWELv0]),
    phase_other P.tlweLv0.N key key' c a _ hma hp]
  rw [← hv, Option.some.injEq]
  exact Int.natCast_inj

theorem card_div_mod (m step r : ℕ) (hr : r < m) (hs : 0 < step) :
    ((range (step * m * 2)).filter fun y => y / step % m = r).card = 2 * step := by
  rw [show 2 * step = (range 2 ×ˢ range step).card by simp]
  symm
  refine Finset.card_bij (fun p _ => (p.1 * m + r) * step + p.2) ?_ ?_ ?_
  · rintro ⟨q, t⟩ h
    simp only [mem_product, mem_range, mem_filter] at h ⊢
    have e : ((q * m + r) * step + t) / step = q * m + r := by
      rw [mul_comm, Nat.mul_add_div hs, Nat.div_eq_of_lt h.2, add_zero]
    constructor
    · have h1 : q * m + r + 1 ≤ 2 * m := by nlinarith [h.1]
      have h2 := Nat.mul_le_mul_right step h1
      nlinarith [h.2]
    · rw [e, add_comm, Nat.add_mul_mod_self_right, Nat.mod_eq_of_lt hr]
  · rintro ⟨q, t⟩ h ⟨q', t'⟩ h' e
    simp only [mem_product, mem_range] at h h' e
    have e1 := congrArg (· / step) e
    have e2 := congrArg (· % step) e
    rw [mul_comm, Nat.mul_add_div hs, Nat.div_eq_of_lt h.2, mul_comm (q' * m + r), Nat.mul_add_div hs,
      Nat.div_eq_of_lt h'.2] at e1
    rw [mul_comm, Nat.mul_add_mod, Nat.mod_eq_of_lt h.2, mul_comm (q' * m + r), Nat.mul_add_mod,
      Nat.mod_eq_of_lt h'.2] at e2
    have : q = q' := Nat.eq_of_mul_eq_mul_right (show 0 < m by omega) (by omega)
    rw [this, e2]
  · intro y hy
    simp only [mem_filter, mem_range] at hy
    refine ⟨(y / step / m, y % step), ?_, ?_⟩
    · simp only [mem_product, mem_range]
      refine ⟨?_, Nat.mod_lt _ hs⟩
      rw [Nat.div_div_eq_div_mul, Nat.div_lt_iff_lt_mul (Nat.mul_pos hs (by omega))]
      linarith [hy.1]
    · simp only
      have h1 := Nat.div_add_mod (y / step) m
      rw [hy.2] at h1
      have h2 := Nat.div_add_mod y step
      rw [mul_comm (y / step / m), h1, mul_comm]
      exact h2

theorem uprob_range (K c : ℕ) (E : ℕ → Prop) [DecidablePred E] (h : ((range K).filter E).card = c) :
    uprob (fun x : Fin K => E x) = c / K := by
  rw [uprob_eq, Fintype.card_fin, ← h]
  congr 2
  refine Finset.card_bij (fun x _ => (x : ℕ)) ?_ ?_ ?_
  · intro a ha
    simp only [mem_filter, mem_univ, true_and, mem_range] at ha ⊢
    exact ⟨a.2, ha⟩
  · intro a _ b _ h; exact Fin.ext h
  · intro b hb
    simp only [mem_filter, mem_range] at hb
    exact ⟨⟨b, hb.1⟩, by simpa using hb.2, rfl⟩

/-- With a power of two as modulus every message has the same number of words decoding to it. -/
theorem uprob_decode (j r : ℕ) (hj : j ≤ 31) (hr : r < 2 ^ j) :
    uprob (fun x : Torus => decodeMsg (2 ^ j) x = r) = 1 / 2 ^ j := by
  have hstep : 2 ^ 31 / 2 ^ j = 2 ^ (31 - j) := Nat.pow_div hj (by norm_num)
  have hpos : 0 < 2 ^ (31 - j) := by positivity
  have hall : 2 ^ (31 - j) * 2 ^ j * 2 = 2 ^ 32 := by
    rw [← pow_add, ← pow_succ]
    congr 1
    omega
  have e : ∀ x : Torus, decodeMsg (2 ^ j) x = r ↔
      ((((2 ^ (31 - j) / 2 : ℕ) : Torus) + x).toNat) / 2 ^ (31 - j) % 2 ^ j = r := by
    intro x
    unfold decodeMsg
    rw [hstep, BitVec.toNat_add]
    have : ((2 ^ (31 - j) / 2 : ℕ) : Torus).toNat = 2 ^ (31 - j) / 2 := by
      show (BitVec.ofNat 32 _).toNat = _
      rw [BitVec.toNat_ofNat, Nat.mod_eq_of_lt]
      have : 2 ^ (31 - j) ≤ 2 ^ 31 := Nat.pow_le_pow_right (by norm_num) (by omega)
      omega
    rw [this, add_comm x.toNat]
  rw [uprob_congr e, uprob_add _ fun y => y.toNat / 2 ^ (31 - j) % 2 ^ j = r, ← uprob_fin]
  have h := uprob_range (2 ^ (31 - j) * 2 ^ j * 2) (2 * 2 ^ (31 - j)) (fun y => y / 2 ^ (31 - j) % 2 ^ j = r)
    (card_div_mod _ _ _ hr hpos)
  have h2 : ((2 * 2 ^ (31 - j) : ℕ) : ℝ) / ((2 ^ (31 - j) * 2 ^ j * 2 : ℕ) : ℝ) = 1 / 2 ^ j := by
    push_cast
    field_simp
  rw [h2] at h
  rw [← h]
  clear h h2 e
  generalize 2 ^ (31 - j) * 2 ^ j * 2 = K at hall
  subst hall
  rfl

/-- **C84** for messages with a power of two as modulus: read with another key, every message is equally likely. -/
theorem C84_message_pow2 (fl : ℚ → ℚ) (P : Params) (key key' : List Torus) (hb : IsBinary key) (hb' : IsBinary key')
    (hl : key.length = P.tlweLv0.N) (hl' : key'.length = P.tlweLv0.N) (hne : key ≠ key') (msg : ℤ) (j : ℕ)
    (hj : j ≤ 31) (e : ℚ) (r : ℕ) (hr : r < 2 ^ j) :
    uprob (fun a : Mask P.tlweLv0.N =>
      (encryptLWEMessage fl P (newTLWELv0 P) msg (2 ^ j : ℕ) key a.draw e).bind
        (fun c => decryptLWEMessage P c (2 ^ j : ℕ) key') = some (r : ℤ)) = 1 / 2 ^ j := by
  rw [C84_message fl P key key' hb hb' hl hl' hne msg (2 ^ j) (Nat.one_le_two_pow)
    (Nat.pow_le_pow_right (by norm_num) hj) e r, uprob_decode j r hj hr]

/-- **C84** for Booleans at level 1. -/
theorem C84_bool_lv1 (P : Params) (key key' : List Torus) (hb : IsBinary key) (hb' : IsBinary key')
    (hl : key.length = P.tlweLv1.N) (hl' : key'.length = P.tlweLv1.N) (hne : key ≠ key') (m out : Bool) (e : ℚ) :
    uprob (fun a : Mask P.tlweLv1.N =>
      (tlwe1EncryptBool P (newTLWELv1 P) m key a.draw e).bind (fun c => tlwe1DecryptBool P c key') = some out)
      = 1 / 2 := by
  obtain ⟨i, hi⟩ := keys_differ P.tlweLv1.N key key' hb hb' hl hl' hne
  set v := f64ToTorus (if m then 0.125 else -0.125) + f64ToTorus e with hv
  rw [← uprob_sign out, ← uprob_add v, ← uprob_hom _ (maskHom_surj (fun i => at' key i - at' key' i) i hi)
      fun x => decide (0 ≤ (v + x).toInt) = out]
  apply uprob_congr
  intro a
  obtain ⟨c, h, hlc, hma, hp⟩ := tlwe1EncryptF64_eq P (newTLWELv1 P) key (if m then 0.125 else -0.125) a.draw e hl.ge
    (by simp [newTLWELv1])
  unfold tlwe1EncryptBool
  simp only [h, Option.bind_some]
  rw [tlwe1DecryptBool_eq P c key' hl' (by rw [hlc]; simp [newTLWELv1]),
    phase_other P.tlweLv1.N key key' c a _ hma hp, ← hv, Option.some.injEq]

/-- A case for the theorems above: keys at the default level that differ in one bit. A wrong key with a single wrong bit
reads `true` and `false` with probability 1/2 each, and every message of modulus 4 with probability 1/4. -/
example (fl : ℚ → ℚ) (m out : Bool) (e : ℚ) (msg : ℤ) (r : ℕ) (hr : r < 4) :
    uprob (fun a : Mask params128Bit.tlweLv0.N =>
      (tlwe0EncryptBool params128Bit (newTLWELv0 params128Bit) m (mkSlice 700 1) a.draw e).bind
        (fun c => tlwe0DecryptBool params128Bit c ((mkSlice 700 1).set 3 0)) = some out) = 1 / 2 ∧
    uprob (fun a : Mask params128Bit.tlweLv0.N =>
      (encryptLWEMessage fl params128Bit (newTLWELv0 params128Bit) msg (2 ^ 2 : ℕ) (mkSlice 700 1) a.draw e).bind
        (fun c => decryptLWEMessage params128Bit c (2 ^ 2 : ℕ) ((mkSlice 700 1).set 3 0)) = some (r : ℤ)) = 1 / 2 ^ 2 := by
  have h1 : IsBinary (mkSlice 700 1) := by
    intro x hx
    exact Or.inr (List.eq_of_mem_replicate hx)
  have h2 : IsBinary ((mkSlice 700 1).set 3 0) := by
    intro x hx
    rcases List.mem_or_eq_of_mem_set hx with h | h
    · exact h1 x h
    · exact Or.inl h
  have hne : (mkSlice 700 1 : List Torus) ≠ (mkSlice 700 1).set 3 0 := by
    intro h
    have h3 : (mkSlice 700 (1 : Torus))[3]? = some 1 := by rw [mkSlice, List.getElem?_replicate, if_pos (by norm_num)]
    have h4 : ((mkSlice 700 (1 : Torus)).set 3 0)[3]? = some 0 := by
      rw [List.getElem?_set_self]
      rw [mkSlice, List.length_replicate]
      norm_num
    rw [← h, h3] at h4
    cases h4
  have hl : (mkSlice 700 (1 : Torus)).length = params128Bit.tlweLv0.N := List.length_replicate
  have hl' : ((mkSlice 700 (1 : Torus)).set 3 0).length = params128Bit.tlweLv0.N := by rw [List.length_set]; exact hl
  exact ⟨C84_bool _ _ _ h1 h2 hl hl' hne m out e,
    C84_message_pow2 fl _ _ _ h1 h2 hl hl' hne msg 2 (by norm_num) e r hr⟩

end GoTfhe
