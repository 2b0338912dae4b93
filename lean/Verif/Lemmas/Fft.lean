import Verif.Model.Fft
import Verif.Lemmas.BitRev

/-!
# What the loops of the transform compute

Complex number `p` of a `FourierPoly` is stored at positions `8*(p/4) + p%4` and four further on. The in-place
loops are shown equal to functions on sequences of complex numbers, for every arithmetic.
-/

namespace GoTfhe

section

variable {R : Type}

/-- The stored form of the first `N/2` complex numbers of `z`. -/
def pack (N : ℕ) (z : ℕ → R × R) : List R :=
  tab N fun x => if x % 8 < 4 then (z (4 * (x / 8) + x % 8)).1 else (z (4 * (x / 8) + (x % 8 - 4))).2

@[simp] theorem length_pack (N : ℕ) (z : ℕ → R × R) : (pack N z).length = N := by simp [pack]

/-- The complex number `p` of a stored list -/
def unpack (d : R) (l : List R) (p : ℕ) : R × R :=
  (l.getD (8 * (p / 4) + p % 4) d, l.getD (8 * (p / 4) + p % 4 + 4) d)

theorem pack_congr (B : ℕ) {z z' : ℕ → R × R} (h : ∀ p < 4 * B, z p = z' p) :
    pack (8 * B) z = pack (8 * B) z' := by
  apply tab_congr
  intro x hx
  split_ifs with h1
  · rw [h _ (by omega)]
  · rw [h _ (by omega)]

theorem pack_unpack (d : R) (B : ℕ) (l : List R) (hl : l.length = 8 * B) :
    pack (8 * B) (unpack d l) = l := by
  symm
  apply eq_tab_of _ _ _ hl
  intro x hx
  simp only [unpack]
  split_ifs with h1
  · rw [show 8 * ((4 * (x / 8) + x % 8) / 4) + (4 * (x / 8) + x % 8) % 4 = x by omega,
      List.getD_eq_getElem _ _ hx]
  · rw [show 8 * ((4 * (x / 8) + (x % 8 - 4)) / 4) + (4 * (x / 8) + (x % 8 - 4)) % 4 + 4 = x by omega,
      List.getD_eq_getElem _ _ hx]

theorem pack_inj (B : ℕ) {z z' : ℕ → R × R} (h : pack (8 * B) z = pack (8 * B) z') :
    ∀ p < 4 * B, z p = z' p := by
  intro p hp
  have h' := tab_inj.1 h
  have h1 := h' (8 * (p / 4) + p % 4) (by omega)
  have h2 := h' (8 * (p / 4) + p % 4 + 4) (by omega)
  rw [if_pos (by omega), if_pos (by omega)] at h1
  rw [if_neg (by omega), if_neg (by omega)] at h2
  rw [show 4 * ((8 * (p / 4) + p % 4) / 8) + (8 * (p / 4) + p % 4) % 8 = p by omega] at h1
  rw [show 4 * ((8 * (p / 4) + p % 4 + 4) / 8) + ((8 * (p / 4) + p % 4 + 4) % 8 - 4) = p by omega] at h2
  exact Prod.ext h1 h2

/-- A butterfly on complex numbers at position `q` -/
def bf2 (f : ℕ → R → R → R → R → R → R → R × R × R × R) (q : ℕ) (w u v : R × R) : (R × R) × (R × R) :=
  let r := f q u.1 u.2 v.1 v.2 w.1 w.2
  ((r.1, r.2.1), (r.2.2.1, r.2.2.2))

theorem rd_pack_re (B : ℕ) (z : ℕ → R × R) (α o a : ℕ) (hα : α < B) (ho : o < 4) (ha : a = 8 * α + o) :
    rd (pack (8 * B) z) a = some (z (4 * α + o)).1 := by
  subst ha
  rw [pack, rd_tab _ _ _ (by omega), if_pos (by omega)]
  congr 3
  omega

theorem rd_pack_im (B : ℕ) (z : ℕ → R × R) (α o a : ℕ) (hα : α < B) (ho : o < 4) (ha : a = 8 * α + o + 4) :
    rd (pack (8 * B) z) a = some (z (4 * α + o)).2 := by
  subst ha
  rw [pack, rd_tab _ _ _ (by omega), if_neg (by omega)]
  congr 3
  omega

theorem wr_pack_re (B : ℕ) (z : ℕ → R × R) (α o a : ℕ) (v : R) (hα : α < B) (ho : o < 4) (ha : a = 8 * α + o) :
    wr (pack (8 * B) z) a v
      = some (pack (8 * B) fun p => if p = 4 * α + o then (v, (z p).2) else z p) := by
  subst ha
  rw [wr_eq _ _ _ (by simp; omega)]
  congr 1
  apply eq_tab_of _ _ _ (by simp)
  intro x hx
  have hx' : x < 8 * B := by simpa using hx
  rw [List.getElem_set]
  simp only [pack, getElem_tab]
  by_cases h1 : x % 8 < 4
  · rw [if_pos h1, if_pos h1]
    by_cases h2 : 8 * α + o = x
    · rw [if_pos h2, if_pos (by omega)]
    · rw [if_neg h2, if_neg (by omega)]
  · rw [if_neg h1, if_neg h1, if_neg (by omega)]
    split_ifs <;> rfl

theorem wr_pack_im (B : ℕ) (z : ℕ → R × R) (α o a : ℕ) (v : R) (hα : α < B) (ho : o < 4)
    (ha : a = 8 * α + o + 4) :
    wr (pack (8 * B) z) a v
      = some (pack (8 * B) fun p => if p = 4 * α + o then ((z p).1, v) else z p) := by
  subst ha
  rw [wr_eq _ _ _ (by simp; omega)]
  congr 1
  apply eq_tab_of _ _ _ (by simp)
  intro x hx
  have hx' : x < 8 * B := by simpa using hx
  rw [List.getElem_set]
  simp only [pack, getElem_tab]
  by_cases h1 : x % 8 < 4
  · rw [if_pos h1, if_pos h1, if_neg (by omega)]
    split_ifs <;> rfl
  · rw [if_neg h1, if_neg h1]
    by_cases h2 : 8 * α + o + 4 = x
    · rw [if_pos h2, if_pos (by omega)]
    · rw [if_neg h2, if_neg (by omega)]

theorem bfAt_pack (f : ℕ → R → R → R → R → R → R → R × R × R × R) (w : R × R) (B : ℕ) (z : ℕ → R × R)
    (q α o β o' a b x y : ℕ) (hα : α < B) (ho : o < 4) (hβ : β < B) (ho' : o' < 4)
    (hne : 4 * α + o ≠ 4 * β + o')
    (ha : a = 8 * α + o) (hb : b = 8 * α + o + 4) (hx : x = 8 * β + o') (hy : y = 8 * β + o' + 4) :
    bfAt (f q) w a b x y (pack (8 * B) z) = some (pack (8 * B) fun p =>
      if p = 4 * α + o then (bf2 f q w (z (4 * α + o)) (z (4 * β + o'))).1
      else if p = 4 * β + o' then (bf2 f q w (z (4 * α + o)) (z (4 * β + o'))).2 else z p) := by
  rw [bfAt]
  simp only [Option.bind_eq_bind]
  rw [rd_pack_re B z α o a hα ho ha, Option.bind_some, rd_pack_im B z α o b hα ho hb, Option.bind_some,
    rd_pack_re B z β o' x hβ ho' hx, Option.bind_some, rd_pack_im B z β o' y hβ ho' hy, Option.bind_some]
  rw [wr_pack_re B _ α o a _ hα ho ha, Option.bind_some, wr_pack_im B _ α o b _ hα ho hb, Option.bind_some,
    wr_pack_re B _ β o' x _ hβ ho' hx, Option.bind_some, wr_pack_im B _ β o' y _ hβ ho' hy]
  congr 1
  apply pack_congr
  intro p hp
  simp only [bf2]
  by_cases h1 : p = 4 * α + o
  · have h2 : ¬ p = 4 * β + o' := by omega
    simp [h1, hne]
  · by_cases h2 : p = 4 * β + o'
    · simp [h2, Ne.symm hne]
    · simp [h1, h2]

/-- Two blocks of four complex numbers combined. -/
theorem bfBlocks_pack (f : ℕ → R → R → R → R → R → R → R × R × R × R) (w : R × R) (B : ℕ) (z : ℕ → R × R)
    (β γ j j2 : ℕ) (hβ : β < B) (hγ : γ < B) (hne : β ≠ γ) (hj : j = 8 * β) (hj2 : j2 = 8 * γ) :
    bfBlocks f w j j2 (pack (8 * B) z) = some (pack (8 * B) fun p =>
      if p / 4 = β then (bf2 f p w (z p) (z (4 * γ + p % 4))).1
      else if p / 4 = γ then (bf2 f (4 * β + p % 4) w (z (4 * β + p % 4)) (z p)).2 else z p) := by
  subst hj hj2
  let S : ℕ → List R := fun o => pack (8 * B) fun p => if p % 4 < o then
      (if p / 4 = β then (bf2 f p w (z p) (z (4 * γ + p % 4))).1
      else if p / 4 = γ then (bf2 f (4 * β + p % 4) w (z (4 * β + p % 4)) (z p)).2 else z p) else z p
  rw [bfBlocks]
  have h0 : pack (8 * B) z = S 0 := by simp [S]
  rw [h0, forRange_eq 4 _ S]
  · congr 1
    apply pack_congr
    intro p hp
    rw [if_pos (Nat.mod_lt _ (by omega))]
  · intro o ho
    rw [bfAt_pack f w B _ _ β o γ o _ _ _ _ hβ ho hγ ho (by omega) rfl rfl rfl rfl]
    congr 1
    apply pack_congr
    intro p hp
    have e1 : (4 * β + o) % 4 = o := by omega
    have e2 : (4 * γ + o) % 4 = o := by omega
    have e5 : 8 * β / 2 + o = 4 * β + o := by omega
    simp only [e1, e2, e5, lt_irrefl, if_false]
    by_cases h1 : p = 4 * β + o
    · have e3 : p % 4 = o := by omega
      have e4 : p / 4 = β := by omega
      rw [if_pos h1, if_pos (by omega), if_pos e4, e3, h1]
    · rw [if_neg h1]
      by_cases h2 : p = 4 * γ + o
      · have e3 : p % 4 = o := by omega
        have e4 : p / 4 = γ := by omega
        rw [if_pos h2, if_pos (by omega), if_neg (by omega), if_pos e4, e3, h2]
      · rw [if_neg h2]
        by_cases h3 : p % 4 < o
        · rw [if_pos h3, if_pos (show p % 4 < o + 1 by omega)]
        · rw [if_neg h3]
          by_cases h4 : p % 4 < o + 1
          · rw [if_pos h4, if_neg (by omega), if_neg (by omega)]
          · rw [if_neg h4]

/-- One stage of the transform: butterflies between positions at distance `h`, block number `i` of length `2h`
using the factor `w i`; the butterfly is told the position of its first operand. -/
def stage {C : Type} (b : ℕ → C → C → C → C × C) (h : ℕ) (w : ℕ → C) (z : ℕ → C) (x : ℕ) : C :=
  if x % (2 * h) < h then (b x (w (x / (2 * h))) (z x) (z (x + h))).1
  else (b (x - h) (w (x / (2 * h))) (z (x - h)) (z x)).2

theorem stage_congr {C : Type} (b : ℕ → C → C → C → C × C) (h : ℕ) (w : ℕ → C)
    (m : ℕ) (hh : 0 < h) {z z' : ℕ → C} (e : ∀ x < m * (2 * h), z x = z' x) (x : ℕ)
    (hx : x < m * (2 * h)) : stage b h w z x = stage b h w z' x := by
  have hd := Nat.div_add_mod x (2 * h)
  have hlt : x / (2 * h) < m := Nat.div_lt_of_lt_mul (by rw [mul_comm]; exact hx)
  have hle : (x / (2 * h) + 1) * (2 * h) ≤ m * (2 * h) := Nat.mul_le_mul_right _ hlt
  have hml := Nat.mod_lt x (show 0 < 2 * h by omega)
  have hd' : x = x / (2 * h) * (2 * h) + x % (2 * h) := by rw [mul_comm]; exact hd.symm
  rw [add_mul, one_mul] at hle
  unfold stage
  split_ifs with h1
  · rw [e x hx, e (x + h) (by omega)]
  · rw [e x hx, e (x - h) (by omega)]

theorem forStep_eq {σ : Type*} (lo n step : ℕ) (hs : 0 < step) (S : ℕ → σ) (body : ℕ → σ → Option σ)
    (h : ∀ i < n, body (lo + step * i) (S i) = some (S (i + 1))) :
    forStep lo (lo + step * n) step (S 0) body = some (S n) := by
  have e : (lo + step * n - lo + (step - 1)) / step = n := by
    rw [Nat.add_sub_cancel_left]
    apply Nat.div_eq_of_lt_le
    · rw [mul_comm]; omega
    · rw [add_mul, one_mul, mul_comm n]; omega
  rw [forStep, e]
  exact forRange_eq n _ S h

/-- One block of a middle stage. -/
theorem middle_block (f : ℕ → R → R → R → R → R → R → R × R × R × R) (w : ℕ → R × R) (B : ℕ) (z : ℕ → R × R)
    (h' m i : ℕ) (hB : B = 2 * h' * m) (hi : i < m) (h0 : 0 < h') :
    forStep (2 * i * (8 * h')) (2 * i * (8 * h') + 8 * h') 8
      (pack (8 * B) fun x => if x / (2 * (4 * h')) < i then stage (bf2 f) (4 * h') w z x else z x)
      (fun j c => bfBlocks f (w i) j (j + 8 * h') c)
    = some (pack (8 * B) fun x => if x / (2 * (4 * h')) < i + 1 then stage (bf2 f) (4 * h') w z x else z x) := by
  let S : ℕ → List R := fun b => pack (8 * B) fun x =>
    if x / (2 * (4 * h')) < i ∨ (x / (2 * (4 * h')) = i ∧ x % (4 * h') < 4 * b) then stage (bf2 f) (4 * h') w z x
    else z x
  have e0 : (pack (8 * B) fun x => if x / (2 * (4 * h')) < i then stage (bf2 f) (4 * h') w z x else z x) = S 0 := by
    simp [S]
  have hBi : 2 * h' * (i + 1) ≤ B := by rw [hB]; exact Nat.mul_le_mul_left _ hi
  rw [mul_add, mul_one] at hBi
  have hlin : 2 * i * (8 * h') = 8 * (2 * h' * i) := by ring
  rw [e0, forStep_eq _ h' 8 (by omega) S]
  · congr 1
    apply pack_congr
    intro p hp
    have := Nat.mod_lt p (show 0 < 4 * h' by omega)
    congr 1
    simp only [this, and_true, eq_iff_iff]
    omega
  · intro b hb
    rw [bfBlocks_pack f _ B _ (2 * h' * i + b) (2 * h' * i + b + h') _ _ (by omega) (by omega) (by omega)
      (by rw [hlin]; omega) (by rw [hlin]; omega)]
    congr 1
    apply pack_congr
    intro p hp
    have key : ∀ q, q < 2 * (4 * h') → (2 * (4 * h') * i + q) / (2 * (4 * h')) = i ∧
        (2 * (4 * h') * i + q) % (2 * (4 * h')) = q ∧ (2 * (4 * h') * i + q) % (4 * h') = q % (4 * h') := by
      intro q hq
      refine ⟨?_, ?_, ?_⟩
      · rw [Nat.mul_add_div (by omega), Nat.div_eq_of_lt hq]; rfl
      · rw [Nat.mul_add_mod, Nat.mod_eq_of_lt hq]
      · rw [show 2 * (4 * h') * i = 4 * h' * (2 * i) by ring, Nat.mul_add_mod]
    have el : 2 * (4 * h') * i = 4 * (2 * h' * i) := by ring
    by_cases h1 : p / 4 = 2 * h' * i + b
    · have ep : p = 2 * (4 * h') * i + (4 * b + p % 4) := by rw [el]; omega
      have ep2 : 4 * (2 * h' * i + b + h') + p % 4 = 2 * (4 * h') * i + (4 * b + p % 4 + 4 * h') := by
        rw [el]; omega
      obtain ⟨k1, k2, k3⟩ := key (4 * b + p % 4) (by omega)
      obtain ⟨l1, l2, l3⟩ := key (4 * b + p % 4 + 4 * h') (by omega)
      rw [← ep] at k1 k2 k3
      rw [Nat.mod_eq_of_lt (show 4 * b + p % 4 < 4 * h' by omega)] at k3
      rw [Nat.add_mod_right, Nat.mod_eq_of_lt (show 4 * b + p % 4 < 4 * h' by omega)] at l3
      rw [if_pos h1, if_neg (by omega), ep2, if_neg (by omega), if_pos (by omega), stage, if_pos (by omega), k1]
      congr 3
      omega
    · rw [if_neg h1]
      by_cases h2 : p / 4 = 2 * h' * i + b + h'
      · have ep : p = 2 * (4 * h') * i + (4 * b + p % 4 + 4 * h') := by rw [el]; omega
        have ep2 : 4 * (2 * h' * i + b) + p % 4 = 2 * (4 * h') * i + (4 * b + p % 4) := by
          rw [el]; omega
        obtain ⟨k1, k2, k3⟩ := key (4 * b + p % 4) (by omega)
        obtain ⟨l1, l2, l3⟩ := key (4 * b + p % 4 + 4 * h') (by omega)
        rw [← ep] at l1 l2 l3
        rw [Nat.mod_eq_of_lt (show 4 * b + p % 4 < 4 * h' by omega)] at k3
        rw [Nat.add_mod_right, Nat.mod_eq_of_lt (show 4 * b + p % 4 < 4 * h' by omega)] at l3
        rw [if_pos h2, ep2, if_neg (by omega), if_neg (by omega), if_pos (by omega), stage, if_neg (by omega), l1]
        congr 3 <;> omega
      · rw [if_neg h2]
        congr 1
        simp only [eq_iff_iff]
        by_cases h3 : p / (2 * (4 * h')) = i
        · simp only [h3, lt_irrefl, true_and, false_or]
          have hd := Nat.div_add_mod p (2 * (4 * h'))
          have hml := Nat.mod_lt p (show 0 < 2 * (4 * h') by omega)
          rw [h3] at hd
          obtain ⟨_, _, k3⟩ := key (p % (2 * (4 * h'))) hml
          rw [hd] at k3
          by_cases h4 : p % (2 * (4 * h')) < 4 * h'
          · rw [Nat.mod_eq_of_lt h4] at k3
            omega
          · have : p % (2 * (4 * h')) % (4 * h') = p % (2 * (4 * h')) - 4 * h' := by
              rw [Nat.mod_eq_sub_mod (by omega), Nat.mod_eq_of_lt (by omega)]
            omega
        · simp [h3]

theorem middleStage_eq (f : ℕ → R → R → R → R → R → R → R × R × R × R) (tw : List (R × R)) (w : ℕ → R × R) (B : ℕ)
    (z : ℕ → R × R) (h' m t o : ℕ) (hB : B = 2 * h' * m) (h0 : 0 < h') (ht : t = 8 * h')
    (hw : ∀ i < m, rd tw (o + i) = some (w i)) :
    middleStage f tw m t (o, pack (8 * B) z) = some (o + m, pack (8 * B) (stage (bf2 f) (4 * h') w z)) := by
  subst ht
  let S : ℕ → ℕ × List R := fun i => (o + i, pack (8 * B) fun x =>
    if x / (2 * (4 * h')) < i then stage (bf2 f) (4 * h') w z x else z x)
  have e0 : (o, pack (8 * B) z) = S 0 := by simp [S]
  rw [middleStage, e0, forRange_eq m _ S]
  · simp only [S]
    congr 2
    apply pack_congr
    intro p hp
    rw [if_pos]
    apply Nat.div_lt_of_lt_mul
    rw [hB] at hp
    calc p < 4 * (2 * h' * m) := hp
      _ = 2 * (4 * h') * m := by ring
  · intro i hi
    simp only [S, Option.bind_eq_bind, hw i hi, Option.bind_some]
    rw [middle_block f w B z h' m i hB hi h0]
    rfl

theorem firstStage_eq (f : ℕ → R → R → R → R → R → R → R × R × R × R) (w : R × R) (B : ℕ)
    (z : ℕ → R × R) (h' n : ℕ) (hB : B = 2 * h') (h0 : 0 < h') (hn : n = 8 * h') :
    forStep 0 n 8 (pack (8 * B) z) (fun j c => bfBlocks f w j (j + n) c)
      = some (pack (8 * B) (stage (bf2 f) (4 * h') (fun _ => w) z)) := by
  subst hn
  have := middle_block f (fun _ => w) B z h' 1 0 (by omega) (by omega) h0
  simp only [Nat.mul_zero, Nat.zero_mul, Nat.not_lt_zero, if_false, Nat.zero_add] at this
  rw [this]
  congr 1
  apply pack_congr
  intro p hp
  rw [if_pos]
  apply Nat.div_lt_of_lt_mul
  omega

theorem pairStage2_eq (f : ℕ → R → R → R → R → R → R → R × R × R × R) (tw : List (R × R)) (w : ℕ → R × R) (B : ℕ)
    (z : ℕ → R × R) (o : ℕ) (hw : ∀ i < B, rd tw (o + i) = some (w i)) :
    pairStage2 f tw (8 * B) (o, pack (8 * B) z) = some (o + B, pack (8 * B) (stage (bf2 f) 2 w z)) := by
  let S : ℕ → ℕ × List R := fun i => (o + i, pack (8 * B) fun x =>
    if x / 4 < i then stage (bf2 f) 2 w z x else z x)
  have e0 : (o, pack (8 * B) z) = S 0 := by simp [S]
  have := forStep_eq 0 B 8 (by omega) S (fun j st => do
    let w ← rd tw st.1
    let c ← bfAt (f (j / 2)) w j (j + 4) (j + 2) (j + 4 + 2) st.2
    let c ← bfAt (f (j / 2 + 1)) w (j + 1) (j + 4 + 1) (j + 3) (j + 4 + 3) c
    pure (st.1 + 1, c)) ?_
  · rw [Nat.zero_add] at this
    rw [pairStage2, e0, this]
    simp only [S]
    congr 2
    apply pack_congr
    intro p hp
    rw [if_pos (by omega)]
  · intro i hi
    simp only [S, Option.bind_eq_bind, hw i hi, Option.bind_some, Nat.zero_add, Option.pure_def]
    rw [bfAt_pack f _ B _ _ i 0 i 2 _ _ _ _ hi (by omega) hi (by omega) (by omega) (by omega) (by omega) (by omega)
      (by omega), Option.bind_some,
      bfAt_pack f _ B _ _ i 1 i 3 _ _ _ _ hi (by omega) hi (by omega) (by omega) (by omega) (by omega) (by omega)
      (by omega), Option.bind_some]
    congr 2
    apply pack_congr
    intro p hp
    have e1 : ∀ a, a < 4 → ¬ ((4 * i + a) / 4 < i) := by intro a ha; omega
    have e2 : ∀ a b, a ≠ b → ¬ (4 * i + a = 4 * i + b) := by intro a b h; omega
    by_cases h : p / 4 = i
    · rcases (by omega : p = 4 * i + 0 ∨ p = 4 * i + 1 ∨ p = 4 * i + 2 ∨ p = 4 * i + 3) with h | h | h | h <;>
        subst h
      · rw [if_neg (e2 _ _ (by omega)), if_neg (e2 _ _ (by omega)), if_pos rfl, if_neg (e1 _ (by omega)),
          if_neg (e1 _ (by omega)), if_pos (by omega), stage, if_pos (by omega)]
        simp only [show 8 * i / 2 = 4 * i by omega, show (4 * i + 0) / (2 * 2) = i by omega, show 4 * i + 0 + 2 = 4 * i + 2 by omega]
        rfl
      · rw [if_pos rfl, if_neg (e2 _ _ (by omega)), if_neg (e2 _ _ (by omega)), if_neg (e2 _ _ (by omega)),
          if_neg (e2 _ _ (by omega)), if_neg (e1 _ (by omega)),
          if_neg (e1 _ (by omega)), if_pos (by omega), stage, if_pos (by omega)]
        simp only [show 8 * i / 2 = 4 * i by omega, show (4 * i + 1) / (2 * 2) = i by omega, show 4 * i + 1 + 2 = 4 * i + 3 by omega]
      · rw [if_neg (e2 _ _ (by omega)), if_neg (e2 _ _ (by omega)), if_neg (e2 _ _ (by omega)), if_pos rfl,
          if_neg (e1 _ (by omega)),
          if_neg (e1 _ (by omega)), if_pos (by omega), stage, if_neg (by omega)]
        simp only [show 8 * i / 2 = 4 * i by omega, show (4 * i + 2) / (2 * 2) = i by omega, show 4 * i + 2 - 2 = 4 * i + 0 by omega]
        rfl
      · rw [if_neg (e2 _ _ (by omega)), if_pos rfl, if_neg (e2 _ _ (by omega)), if_neg (e2 _ _ (by omega)),
          if_neg (e2 _ _ (by omega)), if_neg (e2 _ _ (by omega)), if_neg (e1 _ (by omega)),
          if_neg (e1 _ (by omega)), if_pos (by omega), stage, if_neg (by omega)]
        simp only [show 8 * i / 2 = 4 * i by omega, show (4 * i + 3) / (2 * 2) = i by omega, show 4 * i + 3 - 2 = 4 * i + 1 by omega]
    · rw [if_neg (by omega), if_neg (by omega), if_neg (by omega), if_neg (by omega)]
      by_cases h' : p / 4 < i
      · rw [if_pos h', if_pos (by omega)]
      · rw [if_neg h', if_neg (by omega)]

theorem pairStage1_eq (f : ℕ → R → R → R → R → R → R → R × R × R × R) (tw : List (R × R)) (w : ℕ → R × R) (B : ℕ)
    (z : ℕ → R × R) (o : ℕ) (hw : ∀ i < 2 * B, rd tw (o + i) = some (w i)) :
    pairStage1 f tw (8 * B) (o, pack (8 * B) z) = some (o + 2 * B, pack (8 * B) (stage (bf2 f) 1 w z)) := by
  let S : ℕ → ℕ × List R := fun i => (o + 2 * i, pack (8 * B) fun x =>
    if x / 4 < i then stage (bf2 f) 1 w z x else z x)
  have e0 : (o, pack (8 * B) z) = S 0 := by simp [S]
  have := forStep_eq 0 B 8 (by omega) S (fun j st => do
    let w0 ← rd tw st.1
    let w1 ← rd tw (st.1 + 1)
    let c ← bfAt (f (j / 2)) w0 j (j + 4) (j + 1) (j + 4 + 1) st.2
    let c ← bfAt (f (j / 2 + 2)) w1 (j + 2) (j + 4 + 2) (j + 3) (j + 4 + 3) c
    pure (st.1 + 2, c)) ?_
  · rw [Nat.zero_add] at this
    rw [pairStage1, e0, this]
    simp only [S]
    congr 2
    apply pack_congr
    intro p hp
    rw [if_pos (by omega)]
  · intro i hi
    simp only [S, Option.bind_eq_bind, Nat.zero_add, Option.pure_def]
    rw [hw (2 * i) (by omega), Option.bind_some, add_assoc, hw (2 * i + 1) (by omega), Option.bind_some]
    rw [bfAt_pack f _ B _ _ i 0 i 1 _ _ _ _ hi (by omega) hi (by omega) (by omega) (by omega) (by omega) (by omega)
      (by omega), Option.bind_some,
      bfAt_pack f _ B _ _ i 2 i 3 _ _ _ _ hi (by omega) hi (by omega) (by omega) (by omega) (by omega) (by omega)
      (by omega), Option.bind_some]
    congr 2
    apply pack_congr
    intro p hp
    have e1 : ∀ a, a < 4 → ¬ ((4 * i + a) / 4 < i) := by intro a ha; omega
    have e2 : ∀ a b, a ≠ b → ¬ (4 * i + a = 4 * i + b) := by intro a b h; omega
    by_cases h : p / 4 = i
    · rcases (by omega : p = 4 * i + 0 ∨ p = 4 * i + 1 ∨ p = 4 * i + 2 ∨ p = 4 * i + 3) with h | h | h | h <;>
        subst h
      · rw [if_neg (e2 _ _ (by omega)), if_neg (e2 _ _ (by omega)), if_pos rfl, if_neg (e1 _ (by omega)),
          if_neg (e1 _ (by omega)), if_pos (by omega), stage, if_pos (by omega)]
        simp only [show 8 * i / 2 = 4 * i by omega, show (4 * i + 0) / (2 * 1) = 2 * i by omega, show 4 * i + 0 + 1 = 4 * i + 1 by omega]
        rfl
      · rw [if_neg (e2 _ _ (by omega)), if_neg (e2 _ _ (by omega)), if_neg (e2 _ _ (by omega)), if_pos rfl,
          if_neg (e1 _ (by omega)),
          if_neg (e1 _ (by omega)), if_pos (by omega), stage, if_neg (by omega)]
        simp only [show 8 * i / 2 = 4 * i by omega, show (4 * i + 1) / (2 * 1) = 2 * i by omega, show 4 * i + 1 - 1 = 4 * i + 0 by omega]
        rfl
      · rw [if_pos rfl, if_neg (e2 _ _ (by omega)), if_neg (e2 _ _ (by omega)), if_neg (e2 _ _ (by omega)),
          if_neg (e2 _ _ (by omega)), if_neg (e1 _ (by omega)),
          if_neg (e1 _ (by omega)), if_pos (by omega), stage, if_pos (by omega)]
        simp only [show 8 * i / 2 = 4 * i by omega, show (4 * i + 2) / (2 * 1) = 2 * i + 1 by omega, show 4 * i + 2 + 1 = 4 * i + 3 by omega]
      · rw [if_neg (e2 _ _ (by omega)), if_pos rfl, if_neg (e2 _ _ (by omega)), if_neg (e2 _ _ (by omega)),
          if_neg (e2 _ _ (by omega)), if_neg (e2 _ _ (by omega)), if_neg (e1 _ (by omega)),
          if_neg (e1 _ (by omega)), if_pos (by omega), stage, if_neg (by omega)]
        simp only [show 8 * i / 2 = 4 * i by omega, show (4 * i + 3) / (2 * 1) = 2 * i + 1 by omega, show 4 * i + 3 - 1 = 4 * i + 2 by omega]
    · rw [if_neg (by omega), if_neg (by omega), if_neg (by omega), if_neg (by omega)]
      by_cases h' : p / 4 < i
      · rw [if_pos h', if_pos (by omega)]
      · rw [if_neg h', if_neg (by omega)]

/-- The two parts of a complex number divided by `c` -/
def cdivs (A : Arith R) (c : R) (x : R × R) : R × R := (A.div x.1 c, A.div x.2 c)

theorem scaleBlock_pack (A : Arith R) (c : R) (B : ℕ) (z : ℕ → R × R) (β j : ℕ) (hβ : β < B) (hj : j = 8 * β) :
    scaleBlock A c j (pack (8 * B) z)
      = some (pack (8 * B) fun p => if p / 4 = β then cdivs A c (z p) else z p) := by
  subst hj
  let S : ℕ → List R := fun o => pack (8 * B) fun p => if p / 4 = β then
      (if p % 4 < o then A.div (z p).1 c else (z p).1, if p % 4 + 4 < o then A.div (z p).2 c else (z p).2) else z p
  have h0 : pack (8 * B) z = S 0 := by simp [S]
  rw [scaleBlock, h0, forRange_eq 8 _ S]
  · congr 1
    apply pack_congr
    intro p hp
    by_cases h : p / 4 = β
    · rw [if_pos h, if_pos h, if_pos (by omega), if_pos (by omega)]; rfl
    · rw [if_neg h, if_neg h]
  · intro o ho
    simp only [S, Option.bind_eq_bind]
    by_cases h4 : o < 4
    · rw [rd_pack_re B _ β o _ hβ h4 rfl, Option.bind_some, wr_pack_re B _ β o _ _ hβ h4 rfl]
      congr 1
      apply pack_congr
      intro p hp
      by_cases h : p / 4 = β
      · by_cases h1 : p = 4 * β + o
        · subst h1
          simp only [if_pos h, if_true]
          rw [if_neg (by omega), if_neg (by omega), if_pos (by omega), if_neg (by omega)]
        · simp only [if_neg h1, if_pos h]
          congr 1
          · by_cases h5 : p % 4 < o
            · rw [if_pos h5, if_pos (by omega)]
            · rw [if_neg h5, if_neg (by omega)]
          · rw [if_neg (by omega), if_neg (by omega)]
      · rw [if_neg (by omega), if_neg h, if_neg h]
    · obtain ⟨o', ho'⟩ : ∃ o', o = o' + 4 := ⟨o - 4, by omega⟩
      subst ho'
      rw [rd_pack_im B _ β o' _ hβ (by omega) (by omega), Option.bind_some,
        wr_pack_im B _ β o' _ _ hβ (by omega) (by omega)]
      congr 1
      apply pack_congr
      intro p hp
      by_cases h : p / 4 = β
      · by_cases h1 : p = 4 * β + o'
        · subst h1
          simp only [if_pos h, if_true]
          rw [if_pos (by omega), if_neg (by omega), if_pos (by omega), if_pos (by omega)]
        · simp only [if_neg h1, if_pos h]
          congr 1
          · rw [if_pos (by omega), if_pos (by omega)]
          · by_cases h5 : p % 4 + 4 < o' + 4
            · rw [if_pos h5, if_pos (by omega)]
            · rw [if_neg h5, if_neg (by omega)]
      · rw [if_neg (by omega), if_neg h, if_neg h]

/-- The last stage of the inverse transform, with its division. -/
theorem lastStage_eq (A : Arith R) (f : ℕ → R → R → R → R → R → R → R × R × R × R) (w : R × R) (c : R) (B : ℕ)
    (z : ℕ → R × R) (h' n : ℕ) (hB : B = 2 * h') (h0 : 0 < h') (hn : n = 8 * h') :
    forStep 0 n 8 (pack (8 * B) z) (fun j l => do
      let l ← bfBlocks f w j (j + n) l
      let l ← scaleBlock A c j l
      scaleBlock A c (j + n) l)
      = some (pack (8 * B) fun x => cdivs A c (stage (bf2 f) (4 * h') (fun _ => w) z x)) := by
  subst hn
  let S : ℕ → List R := fun b => pack (8 * B) fun x =>
    if x % (4 * h') < 4 * b then cdivs A c (stage (bf2 f) (4 * h') (fun _ => w) z x) else z x
  have e0 : pack (8 * B) z = S 0 := by simp [S]
  have := forStep_eq 0 h' 8 (by omega) S (fun j l => do
      let l ← bfBlocks f w j (j + 8 * h') l
      let l ← scaleBlock A c j l
      scaleBlock A c (j + 8 * h') l) ?_
  · rw [Nat.zero_add] at this
    rw [e0, this]
    congr 1
    apply pack_congr
    intro p hp
    rw [if_pos (Nat.mod_lt _ (by omega))]
  · intro b hb
    simp only [S, Option.bind_eq_bind, Nat.zero_add]
    rw [bfBlocks_pack f w B _ b (b + h') _ _ (by omega) (by omega) (by omega) rfl (by omega), Option.bind_some,
      scaleBlock_pack A c B _ b _ (by omega) rfl, Option.bind_some,
      scaleBlock_pack A c B _ (b + h') _ (by omega) (by omega)]
    congr 1
    apply pack_congr
    intro p hp
    have hp8 : p < 2 * (4 * h') := by omega
    have em : p % (4 * h') = if p < 4 * h' then p else p - 4 * h' := by
      split_ifs with h
      · exact Nat.mod_eq_of_lt h
      · rw [Nat.mod_eq_sub_mod (by omega), Nat.mod_eq_of_lt (by omega)]
    have em2 : p % (2 * (4 * h')) = p := Nat.mod_eq_of_lt hp8
    by_cases h1 : p / 4 = b
    · have hlt : p < 4 * h' := by omega
      rw [if_pos hlt] at em
      have e5 : (4 * (b + h') + p % 4) % (4 * h') = p := by
        rw [show 4 * (b + h') + p % 4 = p + 4 * h' by omega, Nat.add_mod_right, Nat.mod_eq_of_lt hlt]
      rw [if_neg (by omega), if_pos h1, if_pos h1, e5, em, if_neg (by omega), if_neg (by omega), if_pos (by omega),
        stage, em2, if_pos hlt, show 4 * (b + h') + p % 4 = p + 4 * h' by omega]
    · by_cases h2 : p / 4 = b + h'
      · have hlt : ¬ p < 4 * h' := by omega
        rw [if_neg hlt] at em
        have e5 : (4 * b + p % 4) % (4 * h') = 4 * b + p % 4 := Nat.mod_eq_of_lt (by omega)
        rw [if_pos h2, if_neg h1, if_neg h1, if_pos h2, e5, em, if_neg (by omega), if_neg (by omega),
          if_pos (by omega), stage, em2, if_neg hlt, show 4 * b + p % 4 = p - 4 * h' by omega]
      · rw [if_neg h2, if_neg h1, if_neg h1, if_neg h2]
        congr 1
        rw [em]
        simp only [eq_iff_iff]
        split_ifs <;> omega

theorem forDbl_eq {σ : Type*} (e : ℕ) (body : ℕ → σ → Option σ) (S : ℕ → σ) :
    ∀ d s fuel, s + d = e + 1 → d + 1 ≤ fuel → (∀ i, s ≤ i → i ≤ e → body (2 ^ i) (S i) = some (S (i + 1))) →
      forDbl (2 ^ e) body fuel (2 ^ s) (S s) = some (S (e + 1))
  | 0, s, 0, _, hf, _ => by omega
  | 0, s, fuel + 1, hs, _, _ => by
    have : s = e + 1 := by omega
    subst this
    have hp : 0 < 2 ^ e := Nat.pow_pos (by omega)
    rw [forDbl, if_neg (by rw [pow_succ]; omega)]
  | d + 1, s, 0, _, hf, _ => by omega
  | d + 1, s, fuel + 1, hs, hf, h => by
    rw [forDbl, if_pos (Nat.pow_le_pow_right (by omega) (by omega)), h s le_rfl (by omega), Option.bind_some]
    have e1 : 2 ^ s <<< 1 = 2 ^ (s + 1) := by rw [Nat.shiftLeft_eq, ← pow_add]
    rw [e1]
    exact forDbl_eq e body S d (s + 1) fuel (by omega) (by omega) fun i h1 h2 => h i (by omega) h2

theorem two_pow_shiftRight (d : ℕ) : 2 ^ (d + 1) >>> 1 = 2 ^ d := by
  rw [Nat.shiftRight_eq_div_pow, pow_succ]; simp

theorem forHalf2_eq {σ : Type*} (body : ℕ → σ → Option σ) :
    ∀ d fuel (S : ℕ → σ), d + 1 ≤ fuel → (∀ j < d, body (2 ^ (d - j)) (S j) = some (S (j + 1))) →
      forHalf 2 body fuel (2 ^ d) (S 0) = some (S d)
  | d, 0, _, hf, _ => by omega
  | 0, fuel + 1, S, _, _ => by rw [forHalf, if_neg (by simp)]
  | d + 1, fuel + 1, S, hf, h => by
    have hp : 0 < 2 ^ d := Nat.pow_pos (by omega)
    have h0 := h 0 (by omega)
    rw [Nat.sub_zero] at h0
    rw [forHalf, if_pos (by rw [pow_succ]; omega), h0, Option.bind_some, two_pow_shiftRight]
    exact forHalf2_eq body d fuel (fun j => S (j + 1)) (by omega) fun j hj => by
      have := h (j + 1) (by omega)
      rwa [show d + 1 - (j + 1) = d - j by omega] at this

theorem forHalf1_eq {σ : Type*} (body : ℕ → σ → Option σ) :
    ∀ d fuel (S : ℕ → σ), d + 2 ≤ fuel → (∀ j < d + 1, body (2 ^ (d - j)) (S j) = some (S (j + 1))) →
      forHalf 1 body fuel (2 ^ d) (S 0) = some (S (d + 1))
  | d, 0, _, hf, _ => by omega
  | 0, fuel + 1, S, hf, h => by
    have h0 := h 0 (by omega)
    rw [Nat.sub_zero] at h0
    rw [forHalf, if_pos (by simp), h0, Option.bind_some]
    match fuel, hf with
    | fuel + 1, _ => rw [forHalf, if_neg (by simp)]
  | d + 1, fuel + 1, S, hf, h => by
    have hp : 0 < 2 ^ d := Nat.pow_pos (by omega)
    have h0 := h 0 (by omega)
    rw [Nat.sub_zero] at h0
    rw [forHalf, if_pos (by rw [pow_succ]; omega), h0, Option.bind_some, two_pow_shiftRight]
    exact forHalf1_eq body d fuel (fun j => S (j + 1)) (by omega) fun j hj => by
      have := h (j + 1) (by omega)
      rwa [show d + 1 - (j + 1) = d - j by omega] at this

/-- The first `s` stages of the forward transform of `2^k` complex numbers, with factors `g`; the
butterfly is told the number of blocks of the stage. -/
def fftC {C : Type} (b : ℕ → ℕ → C → C → C → C × C) (k : ℕ) (g : ℕ → C) : ℕ → (ℕ → C) → ℕ → C
  | 0, z => z
  | s + 1, z => stage (b (2 ^ s)) (2 ^ (k - 1 - s)) (fun i => g (2 ^ s - 1 + i)) (fftC b k g s z)

/-- The first `j` stages of the inverse transform. -/
def ifftC {C : Type} (b : ℕ → ℕ → C → C → C → C × C) (k : ℕ) (g : ℕ → C) : ℕ → (ℕ → C) → ℕ → C
  | 0, z => z
  | j + 1, z => stage (b (2 ^ (k - 1 - j))) (2 ^ j) (fun i => g (2 ^ k - 2 ^ (k - j) + i)) (ifftC b k g j z)

end

end GoTfhe
