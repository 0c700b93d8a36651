/-
  `wt_int`: counting smaller and greater symbols, listing the symbols of an interval.
-/
import Verif.WtIntLemmas

namespace Sdsl.Wt.WtInt

open Spec Bits

theorem lt_of_key {c : Nat} {a b : Word} (h : key c b < key c a) : b < a := by
  rw [BitVec.lt_def]
  apply Decidable.byContradiction
  intro h2
  have : key c a ≤ key c b := Nat.div_le_div_right (by omega)
  omega

theorem smaller_child (c : Nat) (a b : Word) :
    (agree (c + 1) a b && decide (b < a)) = ((agree c a b && decide (b < a)) || (agree (c + 1) a b && !bit c b && bit c a)) := by
  by_cases h1 : agree (c + 1) a b = true
  · rw [agree_child c a b, h1]
    have hk : key (c + 1) b = key (c + 1) a := by simpa [agree] using h1
    have e1 := key_succ c a
    have e2 := key_succ c b
    cases ha : bit c a <;> cases hb : bit c b <;> rw [ha] at e1 <;> rw [hb] at e2 <;> simp at e1 e2 ⊢
    · have : a < b := lt_of_key (c := c) (by omega)
      exact BitVec.le_of_lt this
    · exact lt_of_key (c := c) (by omega)
  · have h2 : agree (c + 1) a b = false := by simpa using h1
    rw [agree_child c a b, h2]; simp

theorem greater_child (c : Nat) (a b : Word) :
    (agree (c + 1) a b && decide (a < b)) = ((agree c a b && decide (a < b)) || (agree (c + 1) a b && bit c b && !bit c a)) := by
  by_cases h1 : agree (c + 1) a b = true
  · rw [agree_child c a b, h1]
    have hk : key (c + 1) b = key (c + 1) a := by simpa [agree] using h1
    have e1 := key_succ c a
    have e2 := key_succ c b
    cases ha : bit c a <;> cases hb : bit c b <;> rw [ha] at e1 <;> rw [hb] at e2 <;> simp at e1 e2 ⊢
    · exact lt_of_key (c := c) (by omega)
    · have : b < a := lt_of_key (c := c) (by omega)
      exact BitVec.le_of_lt this
  · have h2 : agree (c + 1) a b = false := by simpa using h1
    rw [agree_child c a b, h2]; simp

section counts

variable {x : Nat → Word} {c : Nat} {a : Word}

/-- Symbols in the node of `a` that are smaller than `a`. -/
def smaller (c : Nat) (a : Word) : Word → Bool := fun b => agree c a b && decide (b < a)

/-- Symbols in the node of `a` that are greater than `a`. -/
def greater (c : Nat) (a : Word) : Word → Bool := fun b => agree c a b && decide (a < b)

theorem occ_smaller_one (h : bit c a = true) (i : Nat) :
    occ x (smaller (c + 1) a) i = occ x (smaller c a) i + occ x (fun b => agree (c + 1) a b && !bit c b) i := by
  rw [← occ_or (P := smaller c a)]
  · exact occ_congr (fun j _ => by unfold smaller; rw [smaller_child, h]; simp)
  · intro b hb
    simp only [smaller, agree_child c a b, h, Bool.and_eq_true, beq_iff_eq] at hb
    simp [hb.1.2]

theorem occ_smaller_zero (h : bit c a = false) (i : Nat) : occ x (smaller (c + 1) a) i = occ x (smaller c a) i :=
  occ_congr (fun j _ => by unfold smaller; rw [smaller_child, h]; simp)

theorem occ_greater_zero (h : bit c a = false) (i : Nat) :
    occ x (greater (c + 1) a) i = occ x (greater c a) i + occ x (fun b => agree (c + 1) a b && bit c b) i := by
  rw [← occ_or (P := greater c a)]
  · exact occ_congr (fun j _ => by unfold greater; rw [greater_child, h]; simp)
  · intro b hb
    simp only [greater, agree_child c a b, h, Bool.and_eq_true, beq_iff_eq] at hb
    simp [hb.1.2]

theorem occ_greater_one (h : bit c a = true) (i : Nat) : occ x (greater (c + 1) a) i = occ x (greater c a) i :=
  occ_congr (fun j _ => by unfold greater; rw [greater_child, h]; simp)

theorem occ_smaller_bottom (i : Nat) : occ x (smaller 0 a) i = 0 := by
  rw [occ_eq_zero]
  intro j _
  unfold smaller
  rw [agree_zero]
  by_cases h : x j = a
  · simp [h]
  · simp [h]

theorem occ_greater_bottom (i : Nat) : occ x (greater 0 a) i = 0 := by
  rw [occ_eq_zero]
  intro j _
  unfold greater
  rw [agree_zero]
  by_cases h : x j = a
  · simp [h]
  · simp [h]

end counts

section lex

variable {t : WtInt} {xs : List Word}

/-- The values used in one step of the loops: with `e i = occ (agree (c+1) a) i`. -/
theorem step_one (h : WtOk t xs) {c : Nat} (hc : c < t.maxLevel) {a : Word} (hb : bit c a = true) :
    off t.maxLevel xs (c + 1) a + (occ (fun j => xs.getD j 0#64) (agree (c + 1) a) xs.length - occ (fun j => xs.getD j 0#64) (fun b => agree (c + 1) a b && bit c b) xs.length) + t.size =
      off t.maxLevel xs c a := by
  have hs := occ_split (x := fun j => xs.getD j 0#64) (agree (c + 1) a) (bit c) xs.length
  rw [off_one hc hb, h.size]
  omega

theorem step_zero (h : WtOk t xs) {c : Nat} (hc : c < t.maxLevel) {a : Word} (hb : bit c a = false) : off t.maxLevel xs (c + 1) a + t.size = off t.maxLevel xs c a := by
  rw [off_zero hc hb, h.size]

theorem sub_ones {x : Nat → Word} {c : Nat} {a : Word} (hb : bit c a = false) (i : Nat) :
    occ x (agree (c + 1) a) i - occ x (fun b => agree (c + 1) a b && bit c b) i = occ x (agree c a) i := by
  have hs := occ_split (x := x) (agree (c + 1) a) (bit c) i
  rw [occ_child_zero hb]
  omega

theorem lexLoop_spec (h : WtOk t xs) {a : Word} {i j : Nat} (hij : i ≤ j) (hj : j ≤ xs.length) : ∀ (c : Nat) (sm gr : Nat) (m : Word), c ≤ t.maxLevel → m.toNat = 2 ^ c / 2 →
    lexLoop t a c (off t.maxLevel xs c a) (occ (fun j => xs.getD j 0#64) (agree c a) xs.length) (occ (fun j => xs.getD j 0#64) (agree c a) i)
      (occ (fun j => xs.getD j 0#64) (agree c a) j) sm gr m =
    some (occ (fun j => xs.getD j 0#64) (fun b => b == a) i,
      sm + (occ (fun j => xs.getD j 0#64) (smaller c a) j - occ (fun j => xs.getD j 0#64) (smaller c a) i),
      gr + (occ (fun j => xs.getD j 0#64) (greater c a) j - occ (fun j => xs.getD j 0#64) (greater c a) i)) := by
  intro c
  induction c with
  | zero =>
    intro sm gr m _ _
    rw [lexLoop, agree_zero', occ_smaller_bottom, occ_greater_bottom, occ_smaller_bottom, occ_greater_bottom]; rfl
  | succ c ih =>
    intro sm gr m hc hm
    obtain ⟨h1, h2⟩ := h.ranks (c := c) (by omega) a
    rw [lexLoop, h1, sbind, h2 i (by omega), sbind, h2 j hj, sbind, h2 xs.length (Nat.le_refl _), sbind]
    simp only [Nat.add_sub_cancel_left]
    have hs := occ_split (x := fun j => xs.getD j 0#64) (agree (c + 1) a) (bit c)
    have m1 := occ_mono (x := fun j => xs.getD j 0#64) (smaller c a) hij
    have m2 := occ_mono (x := fun j => xs.getD j 0#64) (greater c a) hij
    have m3 := occ_mono (x := fun j => xs.getD j 0#64) (fun b => agree (c + 1) a b && bit c b) hij
    have m4 := occ_mono (x := fun j => xs.getD j 0#64) (fun b => agree (c + 1) a b && !bit c b) hij
    have s1 := hs i
    have s2 := hs j
    cases hb : bit c a with
    | true =>
      rw [if_pos ((mask_bit hm a).2 hb), step_one h (by omega) hb, ← occ_child_one hb, ← occ_child_one hb, ← occ_child_one hb]
      rw [ih _ _ _ (by omega) (mask_shr hm), occ_smaller_one hb, occ_smaller_one hb, occ_greater_one hb, occ_greater_one hb]
      rw [← occ_child_one hb i] at s1 m3
      rw [← occ_child_one hb j] at s2 m3
      congr 3
      omega
    | false =>
      rw [if_neg (fun h3 => by rw [(mask_bit hm a).1 h3] at hb; simp at hb), step_zero h (by omega) hb, sub_ones hb, sub_ones hb, sub_ones hb]
      rw [ih _ _ _ (by omega) (mask_shr hm), occ_smaller_zero hb, occ_smaller_zero hb, occ_greater_zero hb, occ_greater_zero hb]
      congr 3
      omega

theorem occ_smaller_top (h : WtOk t xs) {a : Word} (ha : a.toNat < 2 ^ t.maxLevel) {i : Nat} (hi : i ≤ xs.length) :
    occ (fun j => xs.getD j 0#64) (smaller t.maxLevel a) i = occ (fun j => xs.getD j 0#64) (fun b => decide (b < a)) i :=
  occ_congr (fun j hj => by unfold smaller; rw [agree_top ha (h.mem_lt (j := j) (by omega))]; rfl)

theorem occ_greater_top (h : WtOk t xs) {a : Word} (ha : a.toNat < 2 ^ t.maxLevel) {i : Nat} (hi : i ≤ xs.length) :
    occ (fun j => xs.getD j 0#64) (greater t.maxLevel a) i = occ (fun j => xs.getD j 0#64) (fun b => decide (a < b)) i :=
  occ_congr (fun j hj => by unfold greater; rw [agree_top ha (h.mem_lt (j := j) (by omega))]; rfl)

theorem occ_lt_big (h : WtOk t xs) {a : Word} (ha : 2 ^ t.maxLevel ≤ a.toNat) {i : Nat} (hi : i ≤ xs.length) :
    occ (fun j => xs.getD j 0#64) (fun b => decide (b < a)) i = i ∧ occ (fun j => xs.getD j 0#64) (fun b => decide (a < b)) i = 0 := by
  constructor
  · rw [occ_congr (Q := fun _ => true), occ_true]
    intro j hj
    have := h.mem_lt (j := j) (by omega)
    simp only [decide_eq_true_eq]
    rw [BitVec.lt_def]; omega
  · rw [occ_eq_zero]
    intro j hj
    have := h.mem_lt (j := j) (by omega)
    simp only [decide_eq_false_iff_not]
    rw [BitVec.lt_def]; omega

theorem lexCount_spec (h : WtOk t xs) (a : Word) {i j : Nat} (hij : i ≤ j) (hj : j ≤ xs.length) :
    lexCount t i j a = some (occ (fun j => xs.getD j 0#64) (fun b => b == a) i,
      occ (fun j => xs.getD j 0#64) (fun b => decide (b < a)) j - occ (fun j => xs.getD j 0#64) (fun b => decide (b < a)) i,
      occ (fun j => xs.getD j 0#64) (fun b => decide (a < b)) j - occ (fun j => xs.getD j 0#64) (fun b => decide (a < b)) i) := by
  obtain ⟨h1, h2⟩ := limit_spec h
  rw [lexCount, h1, sbind]
  by_cases ha : 2 ^ t.maxLevel ≤ a.toNat
  · rw [if_pos ((h2 a).2 ha), occ_big h ha (by omega), (occ_lt_big h ha hj).1, (occ_lt_big h ha hj).2, (occ_lt_big h ha (by omega : i ≤ xs.length)).1,
      (occ_lt_big h ha (by omega : i ≤ xs.length)).2]; rfl
  · rw [if_neg (fun hh => ha ((h2 a).1 hh))]
    obtain ⟨m, hm1, hm2⟩ := topMask_spec h
    rw [hm1, sbind]
    have := lexLoop_spec h (a := a) hij hj t.maxLevel 0 0 m (Nat.le_refl _) hm2
    rw [h.occ_top (by omega) (by omega : i ≤ xs.length), h.occ_top (by omega) hj, h.occ_top (by omega) (Nat.le_refl _), h.off_top (by omega),
      occ_smaller_top h (by omega) hj, occ_smaller_top h (by omega) (by omega : i ≤ xs.length), occ_greater_top h (by omega) hj,
      occ_greater_top h (by omega) (by omega : i ≤ xs.length), Nat.zero_add, Nat.zero_add] at this
    rw [h.size]; exact this

theorem lexSmallerLoop_spec (h : WtOk t xs) {a : Word} {i : Nat} (hi : i ≤ xs.length) : ∀ (c : Nat) (res : Nat) (m : Word), c ≤ t.maxLevel → m.toNat = 2 ^ c / 2 →
    lexSmallerLoop t a c (off t.maxLevel xs c a) (occ (fun j => xs.getD j 0#64) (agree c a) xs.length) (occ (fun j => xs.getD j 0#64) (agree c a) i) res m =
    some (occ (fun j => xs.getD j 0#64) (fun b => b == a) i, res + occ (fun j => xs.getD j 0#64) (smaller c a) i) := by
  intro c
  induction c with
  | zero =>
    intro res m _ _
    rw [lexSmallerLoop, agree_zero', occ_smaller_bottom]; rfl
  | succ c ih =>
    intro res m hc hm
    obtain ⟨h1, h2⟩ := h.ranks (c := c) (by omega) a
    rw [lexSmallerLoop]
    by_cases h0 : occ (fun j => xs.getD j 0#64) (agree (c + 1) a) i = 0
    · rw [if_pos h0]
      have e1 := occ_eq_le_agree (x := fun j => xs.getD j 0#64) (c + 1) a i
      have e2 : occ (fun j => xs.getD j 0#64) (smaller (c + 1) a) i ≤ occ (fun j => xs.getD j 0#64) (agree (c + 1) a) i := by
        apply occ_imp_le
        intro b hb
        simp only [smaller, Bool.and_eq_true] at hb
        exact hb.1
      rw [show occ (fun j => xs.getD j 0#64) (fun b => b == a) i = 0 by omega, show occ (fun j => xs.getD j 0#64) (smaller (c + 1) a) i = 0 by omega]; rfl
    · rw [if_neg h0, h1, sbind, h2 i hi, sbind, h2 xs.length (Nat.le_refl _), sbind]
      simp only [Nat.add_sub_cancel_left]
      have hs := occ_split (x := fun j => xs.getD j 0#64) (agree (c + 1) a) (bit c)
      have s1 := hs i
      cases hb : bit c a with
      | true =>
        rw [if_pos ((mask_bit hm a).2 hb), step_one h (by omega) hb, ← occ_child_one hb, ← occ_child_one hb]
        rw [ih _ _ (by omega) (mask_shr hm), occ_smaller_one hb]
        rw [← occ_child_one hb] at s1
        congr 2
        omega
      | false =>
        rw [if_neg (fun h3 => by rw [(mask_bit hm a).1 h3] at hb; simp at hb), step_zero h (by omega) hb, sub_ones hb, sub_ones hb]
        rw [ih _ _ (by omega) (mask_shr hm), occ_smaller_zero hb]

theorem lexSmallerCount_spec (h : WtOk t xs) (a : Word) {i : Nat} (hi : i ≤ xs.length) :
    lexSmallerCount t i a = some (occ (fun j => xs.getD j 0#64) (fun b => b == a) i, occ (fun j => xs.getD j 0#64) (fun b => decide (b < a)) i) := by
  obtain ⟨h1, h2⟩ := limit_spec h
  rw [lexSmallerCount, h1, sbind]
  by_cases ha : 2 ^ t.maxLevel ≤ a.toNat
  · rw [if_pos ((h2 a).2 ha), occ_big h ha (by omega), (occ_lt_big h ha hi).1]; rfl
  · rw [if_neg (fun hh => ha ((h2 a).1 hh))]
    obtain ⟨m, hm1, hm2⟩ := topMask_spec h
    rw [hm1, sbind]
    have := lexSmallerLoop_spec h (a := a) hi t.maxLevel 0 m (Nat.le_refl _) hm2
    rw [h.occ_top (by omega) hi, h.occ_top (by omega) (Nat.le_refl _), h.off_top (by omega), occ_smaller_top h (by omega) hi, Nat.zero_add] at this
    rw [h.size]; exact this

end lex

/-! ### interval_symbols -/

/-- Zero child and one child of a node. -/
def child (c : Nat) (a : Word) (b : Bool) : Word := BitVec.ofNat 64 ((2 * key (c + 1) a + b.toNat) * 2 ^ c)

theorem child_lt {L c : Nat} (hc : c < L) {a : Word} (ha : a.toNat < 2 ^ L) (b : Bool) : (2 * key (c + 1) a + b.toNat) * 2 ^ c < 2 ^ L := by
  have h1 : key (c + 1) a < 2 ^ (L - (c + 1)) := by
    unfold key
    rw [Nat.div_lt_iff_lt_mul (Nat.two_pow_pos _), ← Nat.pow_add, show L - (c + 1) + (c + 1) = L by omega]; exact ha
  have h2 : b.toNat ≤ 1 := Bool.toNat_le _
  have h3 : 2 ^ L = (2 * 2 ^ (L - (c + 1))) * 2 ^ c := by
    rw [← Nat.pow_succ', ← Nat.pow_add]; congr 1; omega
  rw [h3]
  exact Nat.mul_lt_mul_of_pos_right (by omega) (Nat.two_pow_pos c)

theorem child_toNat {L c : Nat} (hL : L ≤ 64) (hc : c < L) {a : Word} (ha : a.toNat < 2 ^ L) (b : Bool) : (child c a b).toNat = (2 * key (c + 1) a + b.toNat) * 2 ^ c := by
  have h1 := child_lt hc ha b
  have h2 : 2 ^ L ≤ 2 ^ 64 := Nat.pow_le_pow_right (by decide) hL
  unfold child
  rw [BitVec.toNat_ofNat, Nat.mod_eq_of_lt (by omega)]

theorem child_key {L c : Nat} (hL : L ≤ 64) (hc : c < L) {a : Word} (ha : a.toNat < 2 ^ L) (b : Bool) : key c (child c a b) = 2 * key (c + 1) a + b.toNat := by
  unfold key
  rw [child_toNat hL hc ha, Nat.mul_div_cancel _ (Nat.two_pow_pos c)]; rfl

theorem child_key_succ {L c : Nat} (hL : L ≤ 64) (hc : c < L) {a : Word} (ha : a.toNat < 2 ^ L) (b : Bool) : key (c + 1) (child c a b) = key (c + 1) a ∧ bit c (child c a b) = b := by
  have h1 := child_key hL hc ha b
  have h2 := key_succ c (child c a b)
  have h3 : b.toNat ≤ 1 := Bool.toNat_le _
  have h4 : (bit c (child c a b)).toNat ≤ 1 := Bool.toNat_le _
  refine ⟨by omega, ?_⟩
  have h5 : (bit c (child c a b)).toNat = b.toNat := by omega
  cases b <;> cases hb : bit c (child c a _) <;> rw [hb] at h5 <;> simp at h5 ⊢

theorem agree_of_key {c : Nat} {a b : Word} (h : key c a = key c b) : agree c a = agree c b := by
  unfold agree; rw [h]

theorem less_of_key {c : Nat} {a b : Word} (h : key c a = key c b) : less c a = less c b := by
  unfold less; rw [h]

theorem off_of_key {L : Nat} {xs : List Word} {c : Nat} {a b : Word} (h : key c a = key c b) : off L xs c a = off L xs c b := by
  unfold off; rw [less_of_key h]

/-- The values of a node in ascending order. -/
def vals (c p : Nat) : List Nat := (List.range (2 ^ c)).map (fun d => p * 2 ^ c + d)

theorem vals_succ (c p : Nat) : vals (c + 1) p = vals c (2 * p) ++ vals c (2 * p + 1) := by
  unfold vals
  rw [show 2 ^ (c + 1) = 2 ^ c + 2 ^ c by rw [Nat.pow_succ]; omega, List.range_add, List.map_append, List.map_map]
  congr 1
  · apply List.map_congr_left
    intro d _
    rw [Nat.mul_add, Nat.mul_comm 2 p, Nat.mul_assoc, Nat.two_mul, Nat.mul_add]
  · apply List.map_congr_left
    intro d _
    simp only [Function.comp]
    rw [Nat.mul_add, Nat.add_mul, Nat.mul_comm 2 p, Nat.mul_assoc, Nat.two_mul, Nat.mul_add]
    omega

theorem vals_zero (p : Nat) : vals 0 p = [p] := by simp [vals]

theorem vals_top (L : Nat) : vals L 0 = List.range (2 ^ L) := by simp [vals]

/-- The entry of a symbol that occurs in `[i..j-1]`. -/
def entry (x : Nat → Word) (i j : Nat) (v : Nat) : Option (Word × Nat × Nat) :=
  if occ x (fun b => b == BitVec.ofNat 64 v) i < occ x (fun b => b == BitVec.ofNat 64 v) j then
    some (BitVec.ofNat 64 v, occ x (fun b => b == BitVec.ofNat 64 v) i, occ x (fun b => b == BitVec.ofNat 64 v) j)
  else none

theorem occ_eq_iff {x : Nat → Word} {P : Word → Bool} {i j : Nat} (hij : i ≤ j) : occ x P i = occ x P j ↔ ∀ q, i ≤ q → q < j → P (x q) = false := by
  obtain ⟨d, rfl⟩ := Nat.exists_eq_add_of_le hij
  clear hij
  induction d with
  | zero => simp; intro q h1 h2; omega
  | succ d ih =>
    rw [← Nat.add_assoc, occ_succ]
    have hm := occ_mono (x := x) P (Nat.le_add_right i d)
    constructor
    · intro h q h1 h2
      have h3 : (P (x (i + d))).toNat = 0 := by omega
      by_cases he : q = i + d
      · subst he
        cases hp : P (x (i + d))
        · rfl
        · rw [hp] at h3; simp at h3
      · exact ih.1 (by omega) q h1 (by omega)
    · intro h
      have h3 := h (i + d) (by omega) (by omega)
      rw [h3]
      have := ih.2 (fun q h1 h2 => h q h1 (by omega))
      simpa using this

theorem entry_none {x : Nat → Word} {i j : Nat} (hij : i ≤ j) {c : Nat} {a : Word} (h : occ x (agree c a) i = occ x (agree c a) j) : (vals c (key c a)).filterMap (entry x i j) = [] := by
  rw [List.filterMap_eq_nil_iff]
  intro v hv
  unfold entry
  rw [if_neg]
  have h1 := (occ_eq_iff hij).1 h
  have h2 : occ x (fun b => b == BitVec.ofNat 64 v) i = occ x (fun b => b == BitVec.ofNat 64 v) j := by
    rw [occ_eq_iff hij]
    intro q hq1 hq2
    have h3 := h1 q hq1 hq2
    apply Bool.eq_false_iff.2
    intro he
    have he : x q = BitVec.ofNat 64 v := by simpa using he
    unfold vals at hv
    obtain ⟨d, hd, rfl⟩ := List.mem_map.1 hv
    have hd : d < 2 ^ c := by simpa using hd
    simp only [agree, beq_eq_false_iff_ne] at h3
    apply h3
    -- the value of the node does not overflow
    rw [he]
    by_cases hc : c < 64
    · have h5 : 2 ^ 64 = 2 ^ (64 - c) * 2 ^ c := by rw [← Nat.pow_add]; congr 1; omega
      have h6 : key c a < 2 ^ (64 - c) := by
        unfold key
        rw [Nat.div_lt_iff_lt_mul (Nat.two_pow_pos _), ← h5]; exact a.isLt
      have h7 : (key c a + 1) * 2 ^ c ≤ 2 ^ (64 - c) * 2 ^ c := Nat.mul_le_mul_right _ h6
      rw [Nat.add_mul, Nat.one_mul, ← h5] at h7
      generalize key c a = p at *
      show (BitVec.ofNat 64 (p * 2 ^ c + d)).toNat / 2 ^ c = p
      rw [BitVec.toNat_ofNat, Nat.mod_eq_of_lt (by omega), Nat.mul_comm, Nat.mul_add_div (Nat.two_pow_pos c), Nat.div_eq_of_lt hd, Nat.add_zero]
    · have hp : 2 ^ 64 ≤ 2 ^ c := Nat.pow_le_pow_right (by decide) (by omega)
      have k0 : ∀ w : Word, key c w = 0 := fun w => Nat.div_eq_of_lt (by have := w.isLt; omega)
      rw [k0, k0]
  omega

theorem filterMap_congr' {α β : Type} {l : List α} {f g : α → Option β} (h : ∀ a ∈ l, f a = g a) : l.filterMap f = l.filterMap g := by
  induction l with
  | nil => rfl
  | cons x l ih =>
    rw [List.filterMap_cons, List.filterMap_cons, h x (by simp), ih (fun a ha => h a (List.mem_cons_of_mem _ ha))]

section interval

variable {t : WtInt} {xs : List Word}

theorem intervalLoop_spec (h : WtOk t xs) {i j : Nat} (hij : i ≤ j) (hj : j ≤ xs.length) : ∀ (c : Nat) (a : Word) (path : Word) (out : List (Word × Nat × Nat)), c ≤ t.maxLevel →
    a.toNat < 2 ^ t.maxLevel → path.toNat = key c a → occ (fun j => xs.getD j 0#64) (agree c a) i < occ (fun j => xs.getD j 0#64) (agree c a) j →
    intervalLoop t c (occ (fun j => xs.getD j 0#64) (agree c a) i) (occ (fun j => xs.getD j 0#64) (agree c a) j) (occ (fun j => xs.getD j 0#64) (agree c a) xs.length)
      (off t.maxLevel xs c a) path out =
    some (out ++ (vals c (key c a)).filterMap (entry (fun j => xs.getD j 0#64) i j)) := by
  intro c
  induction c with
  | zero =>
    intro a path out _ ha hp hlt
    rw [key_zero] at hp
    rw [agree_zero'] at hlt
    rw [intervalLoop, vals_zero, key_zero, BitVec.eq_of_toNat_eq hp, agree_zero', List.filterMap_cons]
    unfold entry
    rw [BitVec.ofNat_toNat, BitVec.setWidth_eq, if_pos hlt]; rfl
  | succ c ih =>
    intro a path out hc ha hp hlt
    have hL := h.level
    obtain ⟨h1, h2⟩ := h.ranks (c := c) (by omega) a
    rw [intervalLoop, h1, sbind, h2 i (by omega), sbind, h2 j hj, sbind, h2 xs.length (Nat.le_refl _), sbind]
    simp only [Nat.add_sub_cancel_left]
    have hk := fun b => child_key (L := t.maxLevel) (by omega) (by omega) ha b (c := c)
    have hks := fun b => child_key_succ (L := t.maxLevel) (by omega) (by omega) ha b (c := c)
    have hcl : ∀ b, (child c a b).toNat < 2 ^ t.maxLevel := fun b => by
      rw [child_toNat (L := t.maxLevel) (by omega) (by omega) ha]; exact child_lt (by omega) ha b
    have hag : ∀ b, agree (c + 1) a = agree (c + 1) (child c a b) := fun b => agree_of_key (hks b).1.symm
    have e0 : ∀ q, occ (fun j => xs.getD j 0#64) (agree (c + 1) a) q - occ (fun j => xs.getD j 0#64) (fun b => agree (c + 1) a b && bit c b) q =
        occ (fun j => xs.getD j 0#64) (agree c (child c a false)) q := fun q => by rw [hag false]; exact sub_ones (hks false).2 q
    have e1 : ∀ q, occ (fun j => xs.getD j 0#64) (fun b => agree (c + 1) a b && bit c b) q = occ (fun j => xs.getD j 0#64) (agree c (child c a true)) q := fun q => by
      rw [hag true]; exact (occ_child_one (hks true).2 q).symm
    have o0 : off t.maxLevel xs (c + 1) a + t.size = off t.maxLevel xs c (child c a false) := by
      rw [off_of_key (hks false).1.symm]; exact step_zero h (by omega) (hks false).2
    have o1 : off t.maxLevel xs (c + 1) a + (occ (fun j => xs.getD j 0#64) (agree (c + 1) a) xs.length -
        occ (fun j => xs.getD j 0#64) (fun b => agree (c + 1) a b && bit c b) xs.length) + t.size = off t.maxLevel xs c (child c a true) := by
      rw [off_of_key (hks true).1.symm, hag true]; exact step_one h (by omega) (hks true).2
    have m0 := occ_mono (x := fun j => xs.getD j 0#64) (agree c (child c a false)) hij
    have m1 := occ_mono (x := fun j => xs.getD j 0#64) (agree c (child c a true)) hij
    have s0 := occ_split (x := fun j => xs.getD j 0#64) (agree (c + 1) a) (bit c) i
    have s1 := occ_split (x := fun j => xs.getD j 0#64) (agree (c + 1) a) (bit c) j
    have z0 := e0 i
    have z1 := e0 j
    rw [e1] at s0 s1 z0 z1
    rw [o1, e0, e0, e0, e1, e1, e1, o0]
    rw [show occ (fun j => xs.getD j 0#64) (agree (c + 1) a) j - occ (fun j => xs.getD j 0#64) (agree (c + 1) a) i -
        (occ (fun j => xs.getD j 0#64) (agree c (child c a true)) j - occ (fun j => xs.getD j 0#64) (agree c (child c a true)) i) =
        occ (fun j => xs.getD j 0#64) (agree c (child c a false)) j - occ (fun j => xs.getD j 0#64) (agree c (child c a false)) i by omega]
    have p0 : (path <<< 1).toNat = key c (child c a false) := shl_one_toNat (by rw [hp, (hks false).1]) (hks false).2
    have p1 : (path <<< 1 ||| 1#64).toNat = key c (child c a true) := shl_or_toNat (by rw [hp, (hks true).1]) (hks true).2
    have hv : vals (c + 1) (key (c + 1) a) = vals c (key c (child c a false)) ++ vals c (key c (child c a true)) := by
      rw [vals_succ, hk, hk]; rfl
    rw [hv, List.filterMap_append]
    have first : (if occ (fun j => xs.getD j 0#64) (agree c (child c a false)) j - occ (fun j => xs.getD j 0#64) (agree c (child c a false)) i > 0 then
        intervalLoop t c (occ (fun j => xs.getD j 0#64) (agree c (child c a false)) i) (occ (fun j => xs.getD j 0#64) (agree c (child c a false)) j)
          (occ (fun j => xs.getD j 0#64) (agree c (child c a false)) xs.length) (off t.maxLevel xs c (child c a false)) (path <<< 1) out else some out) =
        some (out ++ (vals c (key c (child c a false))).filterMap (entry (fun j => xs.getD j 0#64) i j)) := by
      by_cases hz : occ (fun j => xs.getD j 0#64) (agree c (child c a false)) j - occ (fun j => xs.getD j 0#64) (agree c (child c a false)) i > 0
      · rw [if_pos hz]
        exact ih _ _ _ (by omega) (hcl _) p0 (by omega)
      · rw [if_neg hz, entry_none hij (by omega), List.append_nil]
    rw [first, Option.bind_some]
    by_cases hz : occ (fun j => xs.getD j 0#64) (agree c (child c a true)) j - occ (fun j => xs.getD j 0#64) (agree c (child c a true)) i > 0
    · rw [if_pos hz, ih _ _ _ (by omega) (hcl _) p1 (by omega), List.append_assoc]
    · rw [if_neg hz, entry_none hij (c := c) (a := child c a true) (by omega), List.append_nil]

/-- `interval_symbols` lists the symbols of `[i..j-1]` in ascending order with their ranks. -/
theorem intervalSymbols_spec (h : WtOk t xs) {i j : Nat} (hij : i ≤ j) (hj : j ≤ xs.length) :
    intervalSymbols t i j = some ((List.range (2 ^ t.maxLevel)).filterMap (entry (fun j => xs.getD j 0#64) i j)) := by
  have hL := h.level
  have htop : ∀ q, q ≤ xs.length → occ (fun j => xs.getD j 0#64) (agree t.maxLevel 0#64) q = q := fun q hq => h.occ_top (by exact Nat.two_pow_pos _) hq
  unfold intervalSymbols
  by_cases h1 : i = j
  · rw [if_pos h1]
    subst h1
    have := entry_none (x := fun j => xs.getD j 0#64) (Nat.le_refl i) (c := t.maxLevel) (a := 0#64) rfl
    rw [key_top (by exact Nat.two_pow_pos _), vals_top] at this
    rw [this]
  · rw [if_neg h1]
    by_cases h2 : i + 1 = j
    · subst h2
      rw [if_pos rfl, inverseSelect_spec h (by omega), sbind]
      have hm := h.mem_lt (j := i) (by omega)
      have hx : ∀ v, v < 2 ^ t.maxLevel → entry (fun j => xs.getD j 0#64) i (i + 1) v =
          if v = (xs.getD i 0#64).toNat then some (xs.getD i 0#64, occ (fun j => xs.getD j 0#64) (fun b => b == xs.getD i 0#64) i,
            occ (fun j => xs.getD j 0#64) (fun b => b == xs.getD i 0#64) i + 1) else none := by
        intro v hv
        have hv64 : v < 2 ^ 64 := Nat.lt_of_lt_of_le hv (Nat.pow_le_pow_right (by decide) (by omega))
        unfold entry
        rw [occ_succ]
        by_cases he : v = (xs.getD i 0#64).toNat
        · subst he
          rw [if_pos rfl, BitVec.ofNat_toNat, BitVec.setWidth_eq, beq_self_eq_true, if_pos (by simp)]; rfl
        · rw [if_neg he]
          have hb : (xs.getD i 0#64 == BitVec.ofNat 64 v) = false := by
            simp only [beq_eq_false_iff_ne]
            intro h3
            apply he
            rw [h3, BitVec.toNat_ofNat, Nat.mod_eq_of_lt hv64]
          rw [hb, if_neg (by simp)]
      have hlist : ∀ m y (e : Word × Nat × Nat), y < m → (List.range m).filterMap (fun v => if v = y then some e else none) = [e] := by
        intro m y e
        induction m with
        | zero => intro h; omega
        | succ m ih =>
          intro hy
          rw [List.range_succ, List.filterMap_append]
          by_cases he : y = m
          · subst he
            have : (List.range y).filterMap (fun v => if v = y then some e else none) = [] := by
              rw [List.filterMap_eq_nil_iff]
              intro v hv
              have : v < y := by simpa using hv
              rw [if_neg (by omega)]
            rw [this]; simp
          · rw [ih (by omega)]
            simp [Ne.symm he]
      rw [filterMap_congr' (fun v hv => hx v (by simpa using hv)), hlist _ _ _ hm]; rfl
    · rw [if_neg h2]
      have := intervalLoop_spec h hij hj t.maxLevel 0#64 0#64 [] (Nat.le_refl _) (by exact Nat.two_pow_pos _) (by rw [key_top (by exact Nat.two_pow_pos _)]; rfl)
        (by rw [htop i (by omega), htop j hj]; omega)
      rw [htop i (by omega), htop j hj, htop xs.length (Nat.le_refl _), h.off_top (by exact Nat.two_pow_pos _), key_top (by exact Nat.two_pow_pos _), vals_top, List.nil_append] at this
      rw [h.size]; exact this

end interval

end Sdsl.Wt.WtInt
