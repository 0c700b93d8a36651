/-
  Queries of `wt_int`.
-/
import Verif.WtIntCons

namespace Sdsl.Wt.WtInt

open Spec Bits

theorem agree_child (c : Nat) (a b : Word) : agree c a b = (agree (c + 1) a b && (bit c b == bit c a)) := by
  unfold agree
  rw [Bool.eq_iff_iff]
  simp only [beq_iff_eq, Bool.and_eq_true]
  rw [key_succ c a, key_succ c b]
  constructor
  · intro h
    have h1 : (bit c a).toNat ≤ 1 := Bool.toNat_le _
    have h2 : (bit c b).toNat ≤ 1 := Bool.toNat_le _
    have h3 : (bit c b).toNat = (bit c a).toNat := by omega
    refine ⟨by omega, ?_⟩
    cases hb : bit c b <;> cases ha : bit c a <;> rw [ha, hb] at h3 <;> simp at h3 ⊢
  · rintro ⟨h1, h2⟩
    rw [h1, h2]

theorem less_child (c : Nat) (a b : Word) : less c a b = (less (c + 1) a b || (agree (c + 1) a b && !bit c b && bit c a)) := by
  unfold less agree
  rw [Bool.eq_iff_iff]
  simp only [beq_iff_eq, Bool.and_eq_true, Bool.or_eq_true, decide_eq_true_eq, Bool.not_eq_true']
  rw [key_succ c a, key_succ c b]
  cases bit c a <;> cases bit c b <;> simp <;> omega

theorem agree_self (c : Nat) (a : Word) : agree c a a = true := by simp [agree]

theorem agree_zero (a b : Word) : agree 0 a b = (b == a) := by
  unfold agree
  rw [key_zero, key_zero, Bool.eq_iff_iff]
  simp only [beq_iff_eq]
  exact BitVec.toNat_inj

theorem agree_zero' (a : Word) : agree 0 a = fun b => b == a := by
  funext b; exact agree_zero a b

section occs

variable {x : Nat → Word} {c : Nat} {a : Word}

theorem occ_child_one (h : bit c a = true) (i : Nat) : occ x (agree c a) i = occ x (fun b => agree (c + 1) a b && bit c b) i :=
  occ_congr (fun j _ => by rw [agree_child, h]; simp)

theorem occ_child_zero (h : bit c a = false) (i : Nat) : occ x (agree c a) i = occ x (fun b => agree (c + 1) a b && !bit c b) i :=
  occ_congr (fun j _ => by rw [agree_child, h]; simp)

theorem occ_or {P Q : Word → Bool} (h : ∀ b, P b = true → Q b = false) (i : Nat) : occ x (fun b => P b || Q b) i = occ x P i + occ x Q i := by
  induction i with
  | zero => rfl
  | succ i ih =>
    rw [occ_succ, occ_succ, occ_succ, ih]
    have := h (x i)
    cases hp : P (x i) <;> cases hq : Q (x i) <;> simp [hp, hq] at this ⊢ <;> omega

theorem less_agree (b : Word) (h : less c a b = true) : agree c a b = false := by
  simp only [less, decide_eq_true_eq] at h
  simp only [agree, beq_eq_false_iff_ne]; omega

theorem occ_less_one (h : bit c a = true) (i : Nat) :
    occ x (less c a) i = occ x (less (c + 1) a) i + occ x (fun b => agree (c + 1) a b && !bit c b) i := by
  rw [← occ_or (P := less (c + 1) a) (Q := fun b => agree (c + 1) a b && !bit c b)]
  · exact occ_congr (fun j _ => by rw [less_child, h]; simp)
  · intro b hb
    simp [less_agree b hb]

theorem occ_less_zero (h : bit c a = false) (i : Nat) : occ x (less c a) i = occ x (less (c + 1) a) i :=
  occ_congr (fun j _ => by rw [less_child, h]; simp)

end occs

section off

variable {L : Nat} {xs : List Word} {c : Nat} {a : Word}

theorem off_one (hc : c < L) (h : bit c a = true) :
    off L xs c a = off L xs (c + 1) a + occ (fun j => xs.getD j 0#64) (fun b => agree (c + 1) a b && !bit c b) xs.length + xs.length := by
  unfold off
  rw [occ_less_one h, show L - c = (L - (c + 1)) + 1 by omega, Nat.add_mul, Nat.one_mul]
  omega

theorem off_zero (hc : c < L) (h : bit c a = false) : off L xs c a = off L xs (c + 1) a + xs.length := by
  unfold off
  rw [occ_less_zero h, show L - c = (L - (c + 1)) + 1 by omega, Nat.add_mul, Nat.one_mul]
  omega

theorem agree_top (ha : a.toNat < 2 ^ L) {b : Word} (hb : b.toNat < 2 ^ L) : agree L a b = true := by
  simp [agree, key_top ha, key_top hb]

end off

section query

variable {t : WtInt} {xs : List Word}

theorem WtOk.mem_lt (h : WtOk t xs) {j : Nat} (hj : j < xs.length) : (xs.getD j 0#64).toNat < 2 ^ t.maxLevel := by
  have e : xs.getD j 0#64 = xs[j] := by simp [hj]
  rw [e]; exact h.lt _ (List.getElem_mem hj)

theorem WtOk.occ_top (h : WtOk t xs) {a : Word} (ha : a.toNat < 2 ^ t.maxLevel) {i : Nat} (hi : i ≤ xs.length) :
    occ (fun j => xs.getD j 0#64) (agree t.maxLevel a) i = i := by
  rw [occ_congr (Q := fun _ => true), occ_true]
  intro j hj
  exact agree_top ha (h.mem_lt (by omega))

theorem WtOk.off_top (_ : WtOk t xs) {a : Word} (ha : a.toNat < 2 ^ t.maxLevel) : off t.maxLevel xs t.maxLevel a = 0 := by
  unfold off
  rw [Nat.sub_self, Nat.zero_mul, Nat.zero_add, occ_eq_zero]
  intro j hj
  simp only [less, decide_eq_false_iff_not, key_top ha]
  omega

/-- The three ranks taken in a node. -/
theorem WtOk.ranks (h : WtOk t xs) {c : Nat} (hc : c < t.maxLevel) (a : Word) :
    Bv.rank true t.tree (off t.maxLevel xs (c + 1) a) = some (Bv.cnt true t.tree (off t.maxLevel xs (c + 1) a)) ∧
    ∀ i, i ≤ xs.length → Bv.rank true t.tree (off t.maxLevel xs (c + 1) a + occ (fun j => xs.getD j 0#64) (agree (c + 1) a) i) =
      some (Bv.cnt true t.tree (off t.maxLevel xs (c + 1) a) + occ (fun j => xs.getD j 0#64) (fun b => agree (c + 1) a b && bit c b) i) :=
  ⟨(h.node c hc a).rank_start, fun _ hi => (h.node c hc a).rank hi⟩

theorem shl_one_toNat {c : Nat} {res a : Word} (h : res.toNat = key (c + 1) a) (hb : bit c a = false) : (res <<< 1).toNat = key c a := by
  have h1 := key_succ c a
  have h2 : key c a ≤ a.toNat := Nat.div_le_self _ _
  have h3 := a.isLt
  rw [hb] at h1
  rw [BitVec.toNat_shiftLeft, Nat.shiftLeft_eq, h, Nat.mod_eq_of_lt] <;> simp at h1 <;> omega

theorem shl_or_toNat {c : Nat} {res a : Word} (h : res.toNat = key (c + 1) a) (hb : bit c a = true) : (res <<< 1 ||| 1#64).toNat = key c a := by
  have h1 := key_succ c a
  have h2 : key c a ≤ a.toNat := Nat.div_le_self _ _
  have h3 := a.isLt
  rw [hb] at h1
  simp only [Bool.toNat_true] at h1
  have e : (res <<< 1).toNat = 2 * key (c + 1) a := by
    rw [BitVec.toNat_shiftLeft, Nat.shiftLeft_eq, h, Nat.mod_eq_of_lt] <;> omega
  rw [BitVec.toNat_or, e, h1]
  show 2 * key (c + 1) a ||| 1 = _
  have := Nat.two_pow_add_eq_or_of_lt (i := 1) (b := 1) (by decide) (key (c + 1) a)
  rw [Nat.pow_one] at this
  rw [← this]

theorem down_spec (h : WtOk t xs) {j : Nat} (hj : j < xs.length) : ∀ (c : Nat) (res : Word), c ≤ t.maxLevel → res.toNat = key c (xs.getD j 0#64) →
    down t c (off t.maxLevel xs c (xs.getD j 0#64)) (occ (fun j => xs.getD j 0#64) (agree c (xs.getD j 0#64)) xs.length)
      (occ (fun j => xs.getD j 0#64) (agree c (xs.getD j 0#64)) j) res =
    some (occ (fun j => xs.getD j 0#64) (fun b => b == xs.getD j 0#64) j, xs.getD j 0#64) := by
  intro c
  induction c with
  | zero =>
    intro res _ hr
    rw [key_zero] at hr
    rw [down, BitVec.eq_of_toNat_eq hr, agree_zero']
  | succ c ih =>
    intro res hc hr
    obtain ⟨h1, h2⟩ := h.ranks (c := c) (by omega) (xs.getD j 0#64)
    rw [down, h1, sbind, h2 j (by omega), sbind, h2 xs.length (Nat.le_refl _), sbind, (h.node c (by omega) _).get hj (agree_self _ _), sbind]
    have hs := occ_split (x := fun j => xs.getD j 0#64) (agree (c + 1) (xs.getD j 0#64)) (bit c)
    rw [Nat.add_sub_cancel_left, Nat.add_sub_cancel_left]
    cases hb : bit c (xs.getD j 0#64) with
    | true =>
      rw [if_pos rfl, h.size, ← occ_child_one hb, ← occ_child_one hb]
      have := hs xs.length
      rw [← occ_child_one hb] at this
      rw [show occ (fun j => xs.getD j 0#64) (agree (c + 1) (xs.getD j 0#64)) xs.length - occ (fun j => xs.getD j 0#64) (agree c (xs.getD j 0#64)) xs.length =
        occ (fun j => xs.getD j 0#64) (fun b => agree (c + 1) (xs.getD j 0#64) b && !bit c b) xs.length by omega]
      rw [← off_one (by omega) hb]
      exact ih _ (by omega) (shl_or_toNat hr hb)
    | false =>
      rw [if_neg (by simp), h.size, ← off_zero (by omega) hb]
      have e1 := hs xs.length
      have e2 := hs j
      rw [← occ_child_zero hb] at e1 e2
      rw [e1, e2, Nat.add_sub_cancel_left, Nat.add_sub_cancel_left]
      exact ih _ (by omega) (shl_one_toNat hr hb)

/-- `inverse_select` and `operator[]`. -/
theorem inverseSelect_spec (h : WtOk t xs) {j : Nat} (hj : j < xs.length) :
    inverseSelect t j = some (occ (fun j => xs.getD j 0#64) (fun b => b == xs.getD j 0#64) j, xs.getD j 0#64) := by
  have h1 := down_spec h hj t.maxLevel 0#64 (Nat.le_refl _) (by rw [key_top (h.mem_lt hj)]; rfl)
  rw [h.occ_top (h.mem_lt hj) (Nat.le_refl _), h.occ_top (h.mem_lt hj) (by omega), h.off_top (h.mem_lt hj)] at h1
  rw [inverseSelect, h.size, h1]

theorem get_spec (h : WtOk t xs) {j : Nat} (hj : j < xs.length) : get t j = some (xs.getD j 0#64) := by
  have := inverseSelect_spec h hj
  rw [inverseSelect] at this
  rw [get, this, sbind]; rfl

/-! ### The mask -/

theorem mask_shr {c : Nat} {m : Word} (h : m.toNat = 2 ^ (c + 1) / 2) : (m >>> 1).toNat = 2 ^ c / 2 := by
  rw [BitVec.toNat_ushiftRight, h, Nat.shiftRight_eq_div_pow, Nat.pow_succ, Nat.mul_div_cancel _ (by decide)]

theorem mask_bit {c : Nat} {m : Word} (h : m.toNat = 2 ^ (c + 1) / 2) (a : Word) : (a &&& m ≠ 0#64) ↔ bit c a = true :=
  and_bit_ne (by rw [h, Nat.pow_succ, Nat.mul_div_cancel _ (by decide)]) a

theorem topMask_spec (h : WtOk t xs) : ∃ m, topMask t = some m ∧ m.toNat = 2 ^ t.maxLevel / 2 := by
  have h1 := h.pos
  have h2 := h.level
  refine ⟨1#64 <<< (t.maxLevel - 1), ?_, ?_⟩
  · rw [topMask, if_neg (by omega), shl_of_lt (by omega)]
  · rw [one_shl_toNat (by omega)]
    obtain ⟨k, hk⟩ : ∃ k, t.maxLevel = k + 1 := ⟨t.maxLevel - 1, by omega⟩
    rw [hk, Nat.add_sub_cancel, Nat.pow_succ, Nat.mul_div_cancel _ (by decide)]

theorem limit_spec (h : WtOk t xs) : shl 1#64 t.maxLevel = some (1#64 <<< t.maxLevel) ∧ ∀ a : Word, (1#64 <<< t.maxLevel ≤ a) ↔ 2 ^ t.maxLevel ≤ a.toNat := by
  have h2 := h.level
  refine ⟨by rw [shl_of_lt (by omega)], ?_⟩
  intro a
  rw [BitVec.le_def, one_shl_toNat (by omega)]

/-! ### rank -/

theorem occ_eq_le_agree {x : Nat → Word} (c : Nat) (a : Word) (i : Nat) : occ x (fun b => b == a) i ≤ occ x (agree c a) i := by
  apply occ_imp_le
  intro b hb
  have : b = a := by simpa using hb
  rw [this]; exact agree_self _ _

theorem rankLoop_spec (h : WtOk t xs) {a : Word} {i : Nat} (hi : i ≤ xs.length) : ∀ (c : Nat) (m : Word), c ≤ t.maxLevel → m.toNat = 2 ^ c / 2 →
    rankLoop t a c (off t.maxLevel xs c a) (occ (fun j => xs.getD j 0#64) (agree c a) xs.length) (occ (fun j => xs.getD j 0#64) (agree c a) i) m =
    some (occ (fun j => xs.getD j 0#64) (fun b => b == a) i) := by
  intro c
  induction c with
  | zero =>
    intro m _ _
    rw [rankLoop, agree_zero']
  | succ c ih =>
    intro m hc hm
    obtain ⟨h1, h2⟩ := h.ranks (c := c) (by omega) a
    rw [rankLoop]
    by_cases h0 : occ (fun j => xs.getD j 0#64) (agree (c + 1) a) i = 0
    · rw [if_pos h0]
      have := occ_eq_le_agree (x := fun j => xs.getD j 0#64) (c + 1) a i
      rw [show occ (fun j => xs.getD j 0#64) (fun b => b == a) i = 0 by omega]
    · rw [if_neg h0, h1, sbind, h2 i hi, sbind, h2 xs.length (Nat.le_refl _), sbind, Nat.add_sub_cancel_left, Nat.add_sub_cancel_left]
      have hs := occ_split (x := fun j => xs.getD j 0#64) (agree (c + 1) a) (bit c)
      cases hb : bit c a with
      | true =>
        rw [if_pos ((mask_bit hm a).2 hb), h.size, ← occ_child_one hb, ← occ_child_one hb]
        have := hs xs.length
        rw [← occ_child_one hb] at this
        rw [show occ (fun j => xs.getD j 0#64) (agree (c + 1) a) xs.length - occ (fun j => xs.getD j 0#64) (agree c a) xs.length =
          occ (fun j => xs.getD j 0#64) (fun b => agree (c + 1) a b && !bit c b) xs.length by omega]
        rw [← off_one (by omega) hb]
        exact ih _ (by omega) (mask_shr hm)
      | false =>
        rw [if_neg (fun h3 => by rw [(mask_bit hm a).1 h3] at hb; simp at hb), h.size, ← off_zero (by omega) hb]
        have e1 := hs xs.length
        have e2 := hs i
        rw [← occ_child_zero hb] at e1 e2
        rw [e1, e2, Nat.add_sub_cancel_left, Nat.add_sub_cancel_left]
        exact ih _ (by omega) (mask_shr hm)

theorem occ_big (h : WtOk t xs) {a : Word} (ha : 2 ^ t.maxLevel ≤ a.toNat) {i : Nat} (hi : i ≤ xs.length) : occ (fun j => xs.getD j 0#64) (fun b => b == a) i = 0 := by
  rw [occ_eq_zero]
  intro j hj
  have := h.mem_lt (j := j) (by omega)
  simp only [beq_eq_false_iff_ne]
  intro he
  rw [he] at this; omega

theorem rank_spec (h : WtOk t xs) (a : Word) {i : Nat} (hi : i ≤ xs.length) : rank t i a = some (occ (fun j => xs.getD j 0#64) (fun b => b == a) i) := by
  obtain ⟨h1, h2⟩ := limit_spec h
  rw [rank, h1, sbind]
  by_cases ha : 2 ^ t.maxLevel ≤ a.toNat
  · rw [if_pos ((h2 a).2 ha), occ_big h ha hi]; rfl
  · rw [if_neg (fun hh => ha ((h2 a).1 hh))]
    obtain ⟨m, hm1, hm2⟩ := topMask_spec h
    rw [hm1, sbind]
    have := rankLoop_spec h (a := a) hi t.maxLevel m (Nat.le_refl _) hm2
    rw [h.occ_top (by omega) hi, h.occ_top (by omega) (Nat.le_refl _), h.off_top (by omega)] at this
    rw [h.size]; exact this

/-! ### select -/

/-- The recorded path from the node with `c` remaining levels up to the root, `k` levels. -/
def ups (t : WtInt) (xs : List Word) (a : Word) : Nat → Nat → List (Nat × Nat)
  | 0, _ => []
  | k + 1, c => (off t.maxLevel xs (c + 1) a, Bv.cnt true t.tree (off t.maxLevel xs (c + 1) a)) :: ups t xs a k (c + 1)

theorem selDown_spec (h : WtOk t xs) {a : Word} (hpos : 0 < occ (fun j => xs.getD j 0#64) (fun b => b == a) xs.length) :
    ∀ (c : Nat) (m : Word) (k : Nat), c + k = t.maxLevel → m.toNat = 2 ^ c / 2 →
    selDown t a c (off t.maxLevel xs c a) (occ (fun j => xs.getD j 0#64) (agree c a) xs.length) m (ups t xs a k c) =
    some (occ (fun j => xs.getD j 0#64) (fun b => b == a) xs.length, ups t xs a t.maxLevel 0) := by
  intro c
  induction c with
  | zero =>
    intro m k hk _
    rw [selDown, agree_zero', show k = t.maxLevel by omega]
  | succ c ih =>
    intro m k hc hm
    obtain ⟨h1, h2⟩ := h.ranks (c := c) (by omega) a
    have := occ_eq_le_agree (x := fun j => xs.getD j 0#64) (c + 1) a xs.length
    rw [selDown, if_neg (by omega), h1, sbind, h2 xs.length (Nat.le_refl _), sbind, Nat.add_sub_cancel_left]
    have hs := occ_split (x := fun j => xs.getD j 0#64) (agree (c + 1) a) (bit c)
    cases hb : bit c a with
    | true =>
      rw [if_pos ((mask_bit hm a).2 hb), h.size, ← occ_child_one hb]
      have := hs xs.length
      rw [← occ_child_one hb] at this
      rw [show occ (fun j => xs.getD j 0#64) (agree (c + 1) a) xs.length - occ (fun j => xs.getD j 0#64) (agree c a) xs.length =
        occ (fun j => xs.getD j 0#64) (fun b => agree (c + 1) a b && !bit c b) xs.length by omega]
      rw [← off_one (by omega) hb]
      exact ih _ (k + 1) (by omega) (mask_shr hm)
    | false =>
      rw [if_neg (fun h3 => by rw [(mask_bit hm a).1 h3] at hb; simp at hb), h.size, ← off_zero (by omega) hb]
      have e1 := hs xs.length
      rw [← occ_child_zero hb] at e1
      rw [e1, Nat.add_sub_cancel_left]
      exact ih _ (k + 1) (by omega) (mask_shr hm)

theorem selDown_none (h : WtOk t xs) {a : Word} (hpos : occ (fun j => xs.getD j 0#64) (fun b => b == a) xs.length = 0) :
    ∀ (c : Nat) (m : Word) (p : List (Nat × Nat)), c ≤ t.maxLevel → m.toNat = 2 ^ c / 2 →
    ∃ p', selDown t a c (off t.maxLevel xs c a) (occ (fun j => xs.getD j 0#64) (agree c a) xs.length) m p = some (0, p') := by
  intro c
  induction c with
  | zero =>
    intro m p _ _
    refine ⟨p, ?_⟩
    rw [selDown, agree_zero', hpos]
  | succ c ih =>
    intro m p hc hm
    obtain ⟨h1, h2⟩ := h.ranks (c := c) (by omega) a
    rw [selDown]
    by_cases h0 : occ (fun j => xs.getD j 0#64) (agree (c + 1) a) xs.length = 0
    · rw [if_pos h0]; exact ⟨_, rfl⟩
    · rw [if_neg h0, h1, sbind, h2 xs.length (Nat.le_refl _), sbind, Nat.add_sub_cancel_left]
      have hs := occ_split (x := fun j => xs.getD j 0#64) (agree (c + 1) a) (bit c)
      cases hb : bit c a with
      | true =>
        rw [if_pos ((mask_bit hm a).2 hb), h.size, ← occ_child_one hb]
        have := hs xs.length
        rw [← occ_child_one hb] at this
        rw [show occ (fun j => xs.getD j 0#64) (agree (c + 1) a) xs.length - occ (fun j => xs.getD j 0#64) (agree c a) xs.length =
          occ (fun j => xs.getD j 0#64) (fun b => agree (c + 1) a b && !bit c b) xs.length by omega]
        rw [← off_one (by omega) hb]
        exact ih _ _ (by omega) (mask_shr hm)
      | false =>
        rw [if_neg (fun h3 => by rw [(mask_bit hm a).1 h3] at hb; simp at hb), h.size, ← off_zero (by omega) hb]
        have e1 := hs xs.length
        rw [← occ_child_zero hb] at e1
        rw [e1, Nat.add_sub_cancel_left]
        exact ih _ _ (by omega) (mask_shr hm)

/-- Moving a position of a node up by select. -/
theorem up_one (h : WtOk t xs) {c : Nat} (hc : c < t.maxLevel) {j : Nat} (hj : j < xs.length) {a : Word} (hag : agree (c + 1) a (xs.getD j 0#64) = true) (hba : bit c a = bit c (xs.getD j 0#64))
    (hb : bit c a = true) :
    Bv.select true t.tree (Bv.cnt true t.tree (off t.maxLevel xs (c + 1) a) + (occ (fun j => xs.getD j 0#64) (agree c a) j + 1)) =
      some (off t.maxLevel xs (c + 1) a + occ (fun j => xs.getD j 0#64) (agree (c + 1) a) j) := by
  rw [occ_child_one hb]
  exact (h.node c hc a).select_one hj hag (by rw [← hba, hb])

theorem up_zero (h : WtOk t xs) {c : Nat} (hc : c < t.maxLevel) {j : Nat} (hj : j < xs.length) {a : Word} (hag : agree (c + 1) a (xs.getD j 0#64) = true) (hba : bit c a = bit c (xs.getD j 0#64))
    (hb : bit c a = false) :
    Bv.select false t.tree (off t.maxLevel xs (c + 1) a - Bv.cnt true t.tree (off t.maxLevel xs (c + 1) a) + (occ (fun j => xs.getD j 0#64) (agree c a) j + 1)) =
      some (off t.maxLevel xs (c + 1) a + occ (fun j => xs.getD j 0#64) (agree (c + 1) a) j) := by
  rw [occ_child_zero hb]
  have := (h.node c hc a).select_zero hj hag (by rw [← hba, hb])
  have h2 := Bv.cnt_compl t.tree (off t.maxLevel xs (c + 1) a)
  rw [show off t.maxLevel xs (c + 1) a - Bv.cnt true t.tree (off t.maxLevel xs (c + 1) a) = Bv.cnt false t.tree (off t.maxLevel xs (c + 1) a) by omega]
  exact this

theorem mask_shl {c : Nat} (hc : c < 63) {m : Word} (h : m.toNat = 2 ^ c) : (m <<< 1).toNat = 2 ^ (c + 1) := by
  have : 2 ^ (c + 1) < 2 ^ 64 := Nat.pow_lt_pow_right (by decide) (by omega)
  rw [BitVec.toNat_shiftLeft, Nat.shiftLeft_eq, h, ← Nat.pow_succ, Nat.mod_eq_of_lt this]

theorem selUp_spec (h : WtOk t xs) {j : Nat} (hj : j < xs.length) : ∀ (k c : Nat) (m : Word), c + k = t.maxLevel → m.toNat = 2 ^ c →
    selUp t (xs.getD j 0#64) (ups t xs (xs.getD j 0#64) k c) m (occ (fun j => xs.getD j 0#64) (agree c (xs.getD j 0#64)) j + 1) = some (j + 1) := by
  intro k
  induction k with
  | zero =>
    intro c m hc _
    rw [ups, selUp, show c = t.maxLevel by omega, h.occ_top (h.mem_lt hj) (by omega)]
  | succ k ih =>
    intro c m hc hm
    have hL := h.level
    rw [ups, selUp]
    cases hb : bit c (xs.getD j 0#64) with
    | true =>
      rw [if_pos ((and_bit_ne hm _).2 hb), up_one h (by omega) hj (agree_self _ _) rfl hb, sbind]
      rw [Nat.add_sub_cancel_left]
      by_cases hk : k = 0
      · subst hk
        rw [ups, selUp, show c + 1 = t.maxLevel by omega, h.occ_top (h.mem_lt hj) (by omega)]
      · exact ih (c + 1) _ (by omega) (mask_shl (by omega) hm)
    | false =>
      rw [if_neg (fun h3 => by rw [(and_bit_ne hm _).1 h3] at hb; simp at hb), up_zero h (by omega) hj (agree_self _ _) rfl hb, sbind]
      rw [Nat.add_sub_cancel_left]
      by_cases hk : k = 0
      · subst hk
        rw [ups, selUp, show c + 1 = t.maxLevel by omega, h.occ_top (h.mem_lt hj) (by omega)]
      · exact ih (c + 1) _ (by omega) (mask_shl (by omega) hm)

/-- `select(i, c)` finds the position with `i-1` occurrences before it. -/
theorem select_spec (h : WtOk t xs) {j : Nat} (hj : j < xs.length) :
    select t (occ (fun j => xs.getD j 0#64) (fun b => b == xs.getD j 0#64) j + 1) (xs.getD j 0#64) = some (.ok j) := by
  obtain ⟨m, hm1, hm2⟩ := topMask_spec h
  have hlt := occ_lt (x := fun j => xs.getD j 0#64) (P := fun b => b == xs.getD j 0#64) hj (by simp)
  rw [select, hm1, sbind]
  have := selDown_spec h (a := xs.getD j 0#64) (by omega) t.maxLevel m 0 (by omega) hm2
  rw [h.occ_top (h.mem_lt hj) (Nat.le_refl _), h.off_top (h.mem_lt hj), ups] at this
  rw [h.size, this, sbind]
  dsimp only
  rw [if_neg (by omega)]
  have h3 := selUp_spec h hj t.maxLevel 0 1#64 (by omega) rfl
  rw [agree_zero'] at h3
  rw [h3, sbind]; rfl

/-- `select(i, c)` throws when `c` occurs less than `i` times. -/
theorem select_missing (h : WtOk t xs) {a : Word} (ha : a.toNat < 2 ^ t.maxLevel) {i : Nat} (hi : occ (fun j => xs.getD j 0#64) (fun b => b == a) xs.length < i) :
    select t i a = some (.error "c does not occur i times in the WT") := by
  obtain ⟨m, hm1, hm2⟩ := topMask_spec h
  rw [select, hm1, sbind]
  by_cases h0 : occ (fun j => xs.getD j 0#64) (fun b => b == a) xs.length = 0
  · obtain ⟨p', hp⟩ := selDown_none h h0 t.maxLevel m [] (Nat.le_refl _) hm2
    rw [h.occ_top ha (Nat.le_refl _), h.off_top ha] at hp
    rw [h.size, hp, sbind]
    dsimp only
    rw [if_pos (Or.inl rfl)]; rfl
  · have := selDown_spec h (a := a) (by omega) t.maxLevel m 0 (by omega) hm2
    rw [h.occ_top ha (Nat.le_refl _), h.off_top ha, ups] at this
    rw [h.size, this, sbind]
    dsimp only
    rw [if_pos (Or.inr hi)]; rfl

end query

end Sdsl.Wt.WtInt
