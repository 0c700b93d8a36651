/-
  Lemmas about the comma coder.
-/
import Verif.CoderVec

namespace Sdsl.Coder

open Bits Spec

theorem baseDigits_zero (b : Nat) : baseDigits b 0 = [] := by rw [baseDigits]; simp

theorem baseDigits_pos {b x : Nat} (hb : 2 ≤ b) (hx : x ≠ 0) : baseDigits b x = baseDigits b (x / b) ++ [x % b] := by
  rw [baseDigits, dif_neg (by omega)]

theorem len_le {b : Nat} (hb : 2 ≤ b) (k x : Nat) : (baseDigits b x).length ≤ k ↔ x < b ^ k := by
  induction k generalizing x with
  | zero =>
    by_cases h : x = 0
    · subst h; simp [baseDigits_zero]
    · rw [baseDigits_pos hb h]; simp; omega
  | succ k ih =>
    by_cases h : x = 0
    · subst h; simp [baseDigits_zero]; exact Nat.pow_pos (by omega)
    · rw [baseDigits_pos hb h]
      simp only [List.length_append, List.length_singleton]
      have := ih (x / b)
      rw [Nat.div_lt_iff_lt_mul (by omega)] at this
      rw [Nat.pow_succ, ← this]; omega

theorem digits_lt {b x d : Nat} (hb : 2 ≤ b) (h : d ∈ baseDigits b x) : d < b := by
  induction x using Nat.strongRecOn with
  | ind x ih =>
    by_cases h0 : x = 0
    · subst h0; rw [baseDigits_zero] at h; cases h
    · rw [baseDigits_pos hb h0] at h
      rw [List.mem_append, List.mem_singleton] at h
      rcases h with h | h
      · exact ih (x / b) (Nat.div_lt_self (by omega) (by omega)) h
      · rw [h]; exact Nat.mod_lt _ (by omega)

theorem digits_fold {b : Nat} (hb : 2 ≤ b) (x : Nat) : (baseDigits b x).foldl (fun v d => v * b + d) 0 = x := by
  induction x using Nat.strongRecOn with
  | ind x ih =>
    by_cases h0 : x = 0
    · subst h0; rw [baseDigits_zero]; rfl
    · rw [baseDigits_pos hb h0, List.foldl_append, ih (x / b) (Nat.div_lt_self (by omega) (by omega))]
      simp only [List.foldl_cons, List.foldl_nil]
      rw [Nat.mul_comm]; exact Nat.div_add_mod x b

theorem base_ge {t : Nat} (h2 : 2 ≤ t) : 3 ≤ commaBase t := by
  unfold commaBase
  have : 2 ^ 2 ≤ 2 ^ t := Nat.pow_le_pow_right (by omega) h2
  omega

theorem two_le_base {t : Nat} (h2 : 2 ≤ t) : 2 ≤ commaBase t := by have := base_ge h2; omega

theorem len64 {t : Nat} (h2 : 2 ≤ t) {x : Nat} (hx : x < 2 ^ 64) : (baseDigits (commaBase t) x).length ≤ 64 := by
  rw [len_le (two_le_base h2)]
  exact Nat.lt_of_lt_of_le hx (Nat.pow_le_pow_left (two_le_base h2) 64)

theorem short_tab : ∀ t : Fin 31, 2 ≤ t.val → 2 ^ 64 ≤ (2 ^ t.val - 1) ^ (64 / (t.val - 1) + 1) ∧
    (64 / (t.val - 1) + 1 + 1) * t.val < 256 := by decide +kernel

theorem short {t : Nat} (h2 : 2 ≤ t) (h30 : t ≤ 30) {x : Nat} (hx : x < 2 ^ 64) :
    ((baseDigits (commaBase t) x).length + 1) * t < 256 := by
  obtain ⟨h1, h3⟩ := short_tab ⟨t, by omega⟩ h2
  have := (len_le (two_le_base h2) _ x).2 (Nat.lt_of_lt_of_le hx h1)
  exact Nat.lt_of_le_of_lt (Nat.mul_le_mul_right t (Nat.succ_le_succ this)) h3

theorem baseFits_eq {b : Nat} (hb : 2 ≤ b) (f p res : Nat) (hf : (baseDigits b p).length < f) :
    baseFits b f p res = res + (baseDigits b p).length := by
  induction f generalizing p res with
  | zero => omega
  | succ f ih =>
    unfold baseFits
    by_cases h : p = 0
    · rw [if_pos h]; subst h; rw [baseDigits_zero]; rfl
    · rw [if_neg h]
      rw [baseDigits_pos hb h] at hf ⊢
      simp only [List.length_append, List.length_singleton] at hf ⊢
      rw [ih (p / b) (res + 1) (by omega)]; omega

theorem mul_base {t : Nat} (n : Nat) :
    (BitVec.ofNat 64 n <<< t) - BitVec.ofNat 64 n = BitVec.ofNat 64 (n * commaBase t) := by
  have h1 : (BitVec.ofNat 64 n <<< t) = BitVec.ofNat 64 (n * 2 ^ t) := by
    apply BitVec.eq_of_toNat_eq
    rw [BitVec.toNat_shiftLeft, BitVec.toNat_ofNat, BitVec.toNat_ofNat, Nat.shiftLeft_eq, Nat.mod_mul_mod]
  have h2 : n * 2 ^ t = n * commaBase t + n := by
    unfold commaBase
    have := Nat.two_pow_pos t
    rw [← Nat.mul_succ]; congr 1; omega
  rw [h1, h2, BitVec.ofNat_add, BitVec.add_sub_cancel]

theorem upperBound_eq {t : Nat} (h2 : 2 ≤ t) (w : Word) (k i : Nat)
    (h : ∀ j, j < i + k → commaBase t ^ j < 2 ^ 64) :
    upperBound w (commaTbl t k (BitVec.ofNat 64 (commaBase t ^ i))) = min k ((baseDigits (commaBase t) w.toNat).length - i) := by
  induction k generalizing i with
  | zero => simp [commaTbl, upperBound]
  | succ k ih =>
    unfold commaTbl upperBound
    have hi := h i (by omega)
    have hlt : (w < BitVec.ofNat 64 (commaBase t ^ i)) ↔ (baseDigits (commaBase t) w.toNat).length ≤ i := by
      rw [len_le (two_le_base h2), BitVec.lt_def, BitVec.toNat_ofNat, Nat.mod_eq_of_lt hi]
    by_cases hc : w < BitVec.ofNat 64 (commaBase t ^ i)
    · rw [if_pos hc]
      have := hlt.1 hc
      omega
    · rw [if_neg hc, mul_base, ← Nat.pow_succ, ih (i + 1) (fun j hj => h j (by omega))]
      have : ¬ (baseDigits (commaBase t) w.toNat).length ≤ i := fun h => hc (hlt.2 h)
      omega

theorem length_flatLow (t : Nat) (ds : List Nat) : (ds.flatMap (fun d => lowBits d t)).length = ds.length * t := by
  induction ds with
  | nil => simp
  | cons d l ih => simp only [List.flatMap_cons, List.length_append, length_lowBits, List.length_cons, ih, Nat.add_mul]; omega

theorem length_commaBits (t : Nat) (w : Word) : (commaBits t w).length = ((baseDigits (commaBase t) w.toNat).length + 1) * t := by
  unfold commaBits
  rw [length_flatLow]; simp [commaBase]

theorem comma_encLen {t : Nat} (h2 : 2 ≤ t) (h30 : t ≤ 30) (w : Word) : commaEncLen t w = (commaBits t w).length := by
  unfold commaEncLen
  have hb := two_le_base h2
  have hD := len64 (t := t) h2 (x := 2 ^ 64 - 1) (by omega)
  rw [baseFits_eq hb _ _ _ (by omega), Nat.zero_add]
  have hone : (1#64) = BitVec.ofNat 64 (commaBase t ^ 0) := by simp
  rw [hone, upperBound_eq h2 w _ 0]
  · have hle : (baseDigits (commaBase t) w.toNat).length ≤ (baseDigits (commaBase t) (2 ^ 64 - 1)).length := by
      rw [len_le hb]
      have := (len_le hb (baseDigits (commaBase t) (2 ^ 64 - 1)).length (2 ^ 64 - 1)).1 (Nat.le_refl _)
      have := w.isLt
      omega
    have h64 := len64 (t := t) h2 w.isLt
    rw [length_commaBits, Nat.sub_zero, Nat.min_eq_right hle, Nat.mod_eq_of_lt (a := List.length _) (by omega)]
    exact Nat.mod_eq_of_lt (short h2 h30 w.isLt)
  · intro j hj
    have := len_le hb j (2 ^ 64 - 1)
    by_cases hc : 2 ^ 64 - 1 < commaBase t ^ j
    · have := this.2 hc; omega
    · omega

theorem base_lt {t : Nat} : commaBase t < 2 ^ t := by
  unfold commaBase; have := Nat.two_pow_pos t; omega

theorem encodeInBase_eq {t : Nat} (h2 : 2 ≤ t) (h30 : t ≤ 30) (f : Nat) {m : Mem} {pos x : Nat}
    (hf : (baseDigits (commaBase t) x).length < f)
    (h : pos + ((baseDigits (commaBase t) x).flatMap (fun d => lowBits d t)).length ≤ 64 * m.length) :
    ∃ m', encodeInBase t f m (pos / 64) (pos % 64) x =
        some (m', (pos + ((baseDigits (commaBase t) x).flatMap (fun d => lowBits d t)).length) / 64,
          (pos + ((baseDigits (commaBase t) x).flatMap (fun d => lowBits d t)).length) % 64) ∧
      WB m m' pos ((baseDigits (commaBase t) x).flatMap (fun d => lowBits d t)) := by
  induction f generalizing x with
  | zero => omega
  | succ f ih =>
    unfold encodeInBase
    by_cases hx : x = 0
    · subst hx
      rw [if_neg (by simp), baseDigits_zero]
      exact ⟨m, rfl, WB.nil _ _⟩
    · rw [if_pos hx]
      rw [baseDigits_pos (two_le_base h2) hx, List.flatMap_append] at h ⊢
      rw [baseDigits_pos (two_le_base h2) hx, List.length_append] at hf
      rw [List.length_append] at h ⊢
      have e1 : ([x % commaBase t].flatMap (fun d => lowBits d t)) = lowBits (x % commaBase t) t := by simp
      rw [e1, length_lowBits] at h
      obtain ⟨m1, a1, b1⟩ := ih (x := x / commaBase t) (by simp at hf; omega) (by omega)
      rw [a1, sbind]; dsimp only
      obtain ⟨m2, a2, b2⟩ := wim (m := m1) (pos := pos + ((baseDigits (commaBase t) (x / commaBase t)).flatMap (fun d => lowBits d t)).length)
        (len := t) (x := BitVec.ofNat 64 (x % commaBase t)) (by omega) (by omega) (by rw [b1.length]; omega)
      rw [a2]
      refine ⟨m2, by rw [e1, length_lowBits, Nat.add_assoc], ?_⟩
      rw [BitVec.toNat_ofNat, lowBits_mod (by omega)] at b2
      rw [e1]
      exact b1.append b2

theorem comma_encode1 {t : Nat} (h2 : 2 ≤ t) (h30 : t ≤ 30) {m : Mem} {pos : Nat} {w : Word}
    (h : pos + (commaBits t w).length ≤ 64 * m.length) :
    ∃ m', commaEncode1 t m (pos / 64) (pos % 64) w =
        some (m', (pos + (commaBits t w).length) / 64, (pos + (commaBits t w).length) % 64) ∧ WB m m' pos (commaBits t w) := by
  unfold commaEncode1
  have eb : commaBits t w = (baseDigits (commaBase t) w.toNat).flatMap (fun d => lowBits d t) ++ lowBits (commaBase t) t := by
    unfold commaBits; rw [List.flatMap_append]; simp [commaBase]
  rw [eb, List.length_append, length_lowBits] at h
  obtain ⟨m1, a1, b1⟩ := encodeInBase_eq h2 h30 65 (m := m) (pos := pos) (x := w.toNat)
    (by have := len64 (t := t) h2 w.isLt; omega) (by omega)
  rw [a1, sbind]; dsimp only
  obtain ⟨m2, a2, b2⟩ := wim (m := m1) (pos := pos + ((baseDigits (commaBase t) w.toNat).flatMap (fun d => lowBits d t)).length)
    (len := t) (x := BitVec.ofNat 64 (commaBase t)) (by omega) (by omega) (by rw [b1.length]; omega)
  rw [a2]
  rw [BitVec.toNat_ofNat, lowBits_mod (by omega)] at b2
  refine ⟨m2, by rw [eb, List.length_append, length_lowBits, Nat.add_assoc], ?_⟩
  rw [eb]
  exact b1.append b2

theorem read_digit {t : Nat} (h2 : 2 ≤ t) (h30 : t ≤ 30) {m : Mem} {pos d : Nat} (hd : d ≤ commaBase t)
    (h : At m pos (lowBits d t)) :
    ∃ x, readIntAndMove m (pos / 64) (pos % 64) t = some (x, (pos + t) / 64, (pos + t) % 64) ∧ x.toNat % 2 ^ 32 = d := by
  have h1 := h.1
  rw [length_lowBits] at h1
  refine ⟨_, rim (by omega) h1 (by omega), ?_⟩
  have hlt := base_lt (t := t)
  have hp : 2 ^ t ≤ 2 ^ 30 := Nat.pow_le_pow_right (by omega) h30
  rw [field_low h, Nat.mod_eq_of_lt (b := 2 ^ t) (by omega), BitVec.toNat_ofNat, Nat.mod_eq_of_lt (b := 2 ^ 64) (by omega),
    Nat.mod_eq_of_lt (by omega)]

theorem commaDigits_eq {t : Nat} (h2 : 2 ≤ t) (h30 : t ≤ 30) {m : Mem} (ds : List Nat) (hd : ∀ d ∈ ds, d < commaBase t) (f V : Nat)
    {pos : Nat} (hf : ds.length < f) (h : At m pos ((ds ++ [commaBase t]).flatMap (fun d => lowBits d t))) :
    commaDigits t m f (pos / 64) (pos % 64) (BitVec.ofNat 64 V) =
      some (BitVec.ofNat 64 (ds.foldl (fun v d => v * commaBase t + d) V), (pos + (ds.length + 1) * t) / 64,
        (pos + (ds.length + 1) * t) % 64) := by
  induction ds generalizing f V pos with
  | nil =>
    obtain ⟨f, rfl⟩ : ∃ f', f = f' + 1 := ⟨f - 1, by simp at hf; omega⟩
    unfold commaDigits
    simp only [List.nil_append, List.flatMap_cons, List.flatMap_nil, List.append_nil] at h
    obtain ⟨x, hx1, hx2⟩ := read_digit h2 h30 (Nat.le_refl _) h
    rw [hx1, sbind]; dsimp only
    rw [if_pos hx2]
    simp
  | cons d ds ih =>
    obtain ⟨f, rfl⟩ : ∃ f', f = f' + 1 := ⟨f - 1, by simp at hf; omega⟩
    unfold commaDigits
    rw [List.cons_append, List.flatMap_cons, At.append, length_lowBits] at h
    have hdb := hd d (by simp)
    obtain ⟨x, hx1, hx2⟩ := read_digit h2 h30 (Nat.le_of_lt hdb) h.1
    rw [hx1, sbind]; dsimp only
    rw [hx2, if_neg (by omega), mul_base, ← BitVec.ofNat_add,
      ih (fun d' h' => hd d' (by simp [h'])) f _ (by simp at hf; omega) h.2]
    simp only [List.foldl_cons, List.length_cons]
    rw [show pos + t + (ds.length + 1) * t = pos + (ds.length + 1 + 1) * t by rw [Nat.add_mul (ds.length + 1) 1 t]; omega]

theorem comma_dec1 {t : Nat} (h2 : 2 ≤ t) (h30 : t ≤ 30) {m : Mem} {pos : Nat} {w : Word} (h : At m pos (commaBits t w)) :
    commaDec1 t m (pos / 64) (pos % 64) = some (w, (pos + (commaBits t w).length) / 64, (pos + (commaBits t w).length) % 64) := by
  unfold commaDec1
  have hl := h.1
  rw [length_commaBits] at hl ⊢
  have hb := two_le_base h2
  have hlen : (baseDigits (commaBase t) w.toNat).length < 64 * m.length + 1 := by
    have : ((baseDigits (commaBase t) w.toNat).length + 1) * 1 ≤ ((baseDigits (commaBase t) w.toNat).length + 1) * t :=
      Nat.mul_le_mul_left _ (by omega)
    omega
  have := commaDigits_eq h2 h30 (m := m) (baseDigits (commaBase t) w.toNat) (fun d hd => digits_lt hb hd) (64 * m.length + 1) 0 hlen h
  rw [digits_fold hb] at this
  simpa using this

theorem good_comma {t : Nat} (h2 : 2 ≤ t) (h30 : t ≤ 30) : Good (comma t) (commaBits t) where
  pos w := by rw [length_commaBits]; exact Nat.mul_pos (by omega) (by omega)
  encLen w := by show some _ = _; rw [comma_encLen h2 h30]
  encode1 := comma_encode1 h2 h30
  dec1 _ h := comma_dec1 h2 h30 h

theorem commaCount_eq {t : Nat} (h2 : 2 ≤ t) (h30 : t ≤ 30) {m : Mem} (ds : List Nat) (hd : ∀ d ∈ ds, d ≤ commaBase t) (n dg : Nat)
    {pos : Nat} (h : At m pos (ds.flatMap (fun d => lowBits d t))) :
    commaCount t m ds.length (pos / 64) (pos % 64) n dg = some (n + ds.count (commaBase t), ds.getLastD dg) := by
  induction ds generalizing n dg pos with
  | nil => rfl
  | cons d ds ih =>
    rw [List.flatMap_cons, At.append, length_lowBits] at h
    simp only [List.length_cons]
    unfold commaCount
    obtain ⟨x, hx1, hx2⟩ := read_digit h2 h30 (hd d (by simp)) h.1
    rw [hx1, sbind]; dsimp only
    rw [hx2, ih (fun d' h' => hd d' (by simp [h'])) _ _ h.2]
    refine congrArg some (Prod.ext ?_ ?_)
    · simp only [List.count_cons, beq_iff_eq]
      by_cases hc : d = commaBase t
      · rw [if_pos hc, if_pos hc]; omega
      · rw [if_neg hc, if_neg hc]; omega
    · simp [List.getLast?_cons]

/-- All digits of a sequence of values, with terminators. -/
def allDigits (t : Nat) (ys : List Word) : List Nat := ys.flatMap (fun w => baseDigits (commaBase t) w.toNat ++ [commaBase t])

theorem allDigits_bits (t : Nat) (ys : List Word) : ys.flatMap (commaBits t) = (allDigits t ys).flatMap (fun d => lowBits d t) := by
  induction ys with
  | nil => rfl
  | cons w l ih =>
    have e : allDigits t (w :: l) = (baseDigits (commaBase t) w.toNat ++ [commaBase t]) ++ allDigits t l := by
      simp [allDigits]
    rw [e, List.flatMap_append, List.flatMap_cons, ih]; rfl

theorem allDigits_le {t : Nat} (h2 : 2 ≤ t) (ys : List Word) : ∀ d ∈ allDigits t ys, d ≤ commaBase t := by
  intro d hd
  unfold allDigits at hd
  rw [List.mem_flatMap] at hd
  obtain ⟨w, _, h⟩ := hd
  rw [List.mem_append, List.mem_singleton] at h
  rcases h with h | h
  · exact Nat.le_of_lt (digits_lt (two_le_base h2) h)
  · omega

theorem allDigits_count {t : Nat} (h2 : 2 ≤ t) (ys : List Word) : (allDigits t ys).count (commaBase t) = ys.length := by
  induction ys with
  | nil => rfl
  | cons w l ih =>
    have e : allDigits t (w :: l) = (baseDigits (commaBase t) w.toNat ++ [commaBase t]) ++ allDigits t l := by
      simp [allDigits]
    have h0 : (baseDigits (commaBase t) w.toNat).count (commaBase t) = 0 := by
      rw [List.count_eq_zero]
      intro hm
      exact Nat.lt_irrefl _ (digits_lt (two_le_base h2) hm)
    rw [e, List.count_append, List.count_append, h0, ih]
    simp; omega

theorem allDigits_last {t : Nat} (ys : List Word) : (allDigits t ys).getLastD (commaBase t) = commaBase t := by
  induction ys with
  | nil => rfl
  | cons w l ih =>
    have e : allDigits t (w :: l) = (baseDigits (commaBase t) w.toNat ++ [commaBase t]) ++ allDigits t l := by
      simp [allDigits]
    rw [e]
    rw [List.getLastD_eq_getLast?] at ih ⊢
    rw [List.getLast?_append]
    cases hl : (allDigits t l).getLast? with
    | none => simp
    | some x => rw [hl] at ih; simpa using ih

theorem commaEncodeVec_eq {t : Nat} (h2 : 2 ≤ t) (h30 : t ≤ 30) (junk : Nat → Word) {v z : IntVec} (hv : v.WF) (hz : z.WF) :
    ∃ z', commaEncodeVec t junk v z = some z' ∧ z'.WF ∧ z'.width = v.width ∧
      z'.size = ((encVals 0#64 v).flatMap (commaBits t)).length ∧ At z'.data 0 ((encVals 0#64 v).flatMap (commaBits t)) := by
  have := encode_bits (good_comma h2 h30) junk hv hz 0#64 false
  simpa [commaEncodeVec] using this

theorem commaDecodeVec_eq {t : Nat} (h2 : 2 ≤ t) (h30 : t ≤ 30) (junk : Nat → Word) (ys : List Word) {z v : IntVec} (hz : z.WF) (hv : v.WF)
    (h : At z.data 0 (ys.flatMap (commaBits t))) (hsz : z.size = (ys.flatMap (commaBits t)).length) :
    ∃ v', commaDecodeVec t junk z v = some (some v') ∧ v'.WF ∧ v'.width = z.width ∧
      v'.elems = ys.map (fun x => x.toNat % 2 ^ z.width) := by
  unfold commaDecodeVec
  have hsz2 := hsz
  have h' := h
  rw [allDigits_bits] at h' hsz2
  rw [length_flatLow] at hsz2
  rw [hsz2, if_neg (by simp), Nat.mul_div_cancel _ (by omega)]
  have hc := commaCount_eq h2 h30 (m := z.data) (allDigits t ys) (allDigits_le h2 ys) 0 (commaBase t) (pos := 0) h'
  rw [show (0 : Nat) / 64 = 0 from rfl, show (0 : Nat) % 64 = 0 from rfl, Nat.zero_add, allDigits_count h2, allDigits_last] at hc
  rw [hc, sbind]; dsimp only
  rw [if_neg (by simp)]
  by_cases h0 : 0#64 ∈ ys
  · obtain ⟨v', a1, a2, a3, a4⟩ := decode_store (good_comma h2 h30) (sh := some 0#64) junk ys (Or.inl (by simp)) h hv hz.w1 hz.w64
    refine ⟨v', ?_, a2, a3, a4⟩
    have e : decode (comma t) false none z.data 0 ys.length = decode (comma t) false (some 0#64) z.data 0 ys.length := by
      have : ∀ n p off v, decLoop (comma t) false none z.data n p off v = decLoop (comma t) false (some 0#64) z.data n p off v := by
        intro n
        induction n with
        | zero => intros; rfl
        | succ n ih => intro p off v; unfold decLoop; simp only [ih]; rfl
      exact this _ _ _ _
    rw [e]
    have hb : ∀ (x : Option IntVec), x = some v' → (some <$> x) = some (some v') := fun x hx => by rw [hx]; rfl
    rw [← hb _ a1]
    cases IntVec.resize junk { v with width := z.width } ys.length with
    | none => rfl
    | some v1 =>
      rw [sbind, sbind]
      cases decode (comma t) false (some 0#64) z.data 0 ys.length with
      | none => rfl
      | some r => rw [sbind, sbind]
  · obtain ⟨v', a1, a2, a3, a4⟩ := decode_store (good_comma h2 h30) (sh := none) junk ys (Or.inr h0) h hv hz.w1 hz.w64
    refine ⟨v', ?_, a2, a3, a4⟩
    have hb : ∀ (x : Option IntVec), x = some v' → (some <$> x) = some (some v') := fun x hx => by rw [hx]; rfl
    rw [← hb _ a1]
    cases IntVec.resize junk { v with width := z.width } ys.length with
    | none => rfl
    | some v1 =>
      rw [sbind, sbind]
      cases decode (comma t) false none z.data 0 ys.length with
      | none => rfl
      | some r => rw [sbind, sbind]

theorem encVals_zero {v : IntVec} (_ : v.WF) : encVals 0#64 v = v.elems.map (BitVec.ofNat 64) := by
  unfold encVals
  apply List.map_congr_left
  intro e _
  split
  · rename_i h; exact h.symm
  · rfl

theorem comma_roundtrip {t : Nat} (h2 : 2 ≤ t) (h30 : t ≤ 30) (j1 j2 : Nat → Word) {v z u : IntVec} (hv : v.WF) (hz : z.WF) (hu : u.WF) :
    ∃ z' v', commaEncodeVec t j1 v z = some z' ∧ commaDecodeVec t j2 z' u = some (some v') ∧ v'.WF ∧ v'.width = v.width ∧
      v'.elems = v.elems := by
  obtain ⟨z', a1, a2, a3, a4, a5⟩ := commaEncodeVec_eq h2 h30 j1 hv hz
  obtain ⟨v', b1, b2, b3, b4⟩ := commaDecodeVec_eq h2 h30 j2 _ a2 hu a5 a4
  refine ⟨z', v', a1, b1, b2, b3.trans a3, ?_⟩
  rw [b4, a3, encVals_zero hv, List.map_map]
  conv => rhs; rw [← List.map_id v.elems]
  apply List.map_congr_left
  intro e he
  have h1 := elems_lt_pow he
  have hp : 2 ^ v.width ≤ 2 ^ 64 := Nat.pow_le_pow_right (by omega) hv.w64
  show (BitVec.ofNat 64 e).toNat % 2 ^ v.width = e
  rw [BitVec.toNat_ofNat, Nat.mod_eq_of_lt (b := 2 ^ 64) (by omega), Nat.mod_eq_of_lt h1]

end Sdsl.Coder
