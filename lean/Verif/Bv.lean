/-
  Abstract bit vectors with rank and select supports. Structures that are templates over the bit vector and support types
  (sd_vector, rrr_vector's tables, wavelet trees, ...) only use the documented interface of these types:
  reading a bit, `rank(i)` for `i ≤ size`, and `select(i)` for `1 ≤ i ≤` number of occurrences. They are modelled on top of the
  functions below, which are undefined (`none`) outside these ranges. Props/BvBridge shows that plain bit vectors with
  `rank_support_v` / `select_support_mcl`, `bit_vector_il` etc. behave exactly like these functions.
-/
import Verif.SpecLemmas

namespace Sdsl.Bv

open Sdsl.Spec

/-- Bit `q` of `B`, as a total function. -/
def bit (B : List Bool) (q : Nat) : Bool := B.getD q false

/-- Number of positions `< i` of `B` that hold the bit `tb`. -/
def cnt (tb : Bool) (B : List Bool) (i : Nat) : Nat := countTrue (fun q => bit B q == tb) i

/-- `B[i]`. -/
def get (B : List Bool) (i : Nat) : Option Bool := B[i]?

/-- `B[i] = x`. -/
def set (B : List Bool) (i : Nat) (x : Bool) : Option (List Bool) := if i < B.length then some (B.set i x) else none

/-- Contract of a rank support for the bit `tb`. -/
def rank (tb : Bool) (B : List Bool) (i : Nat) : Option Nat := if i ≤ B.length then some (cnt tb B i) else none

def selGo (tb : Bool) : List Bool → Nat → Nat → Option Nat
  | [], _, _ => none
  | b :: bs, i, pos => if b == tb then (if i = 1 then some pos else selGo tb bs (i - 1) (pos + 1)) else selGo tb bs i (pos + 1)

/-- Contract of a select support for the bit `tb` (1-based). -/
def select (tb : Bool) (B : List Bool) (i : Nat) : Option Nat := if i = 0 then none else selGo tb B i 0

theorem bit_cons_zero (b : Bool) (bs : List Bool) : bit (b :: bs) 0 = b := rfl

theorem bit_cons_succ (b : Bool) (bs : List Bool) (q : Nat) : bit (b :: bs) (q + 1) = bit bs q := rfl

theorem bit_of_lt {B : List Bool} {q : Nat} (h : q < B.length) : bit B q = B[q] := by
  simp [bit, List.getD, List.getElem?_eq_getElem h]

theorem bit_of_ge {B : List Bool} {q : Nat} (h : B.length ≤ q) : bit B q = false := by
  simp [bit, List.getD, List.getElem?_eq_none h]

theorem get_of_lt {B : List Bool} {q : Nat} (h : q < B.length) : get B q = some (bit B q) := by
  rw [bit_of_lt h]; exact List.getElem?_eq_getElem h

theorem set_of_lt {B : List Bool} {q : Nat} {x : Bool} (h : q < B.length) : set B q x = some (B.set q x) := by
  simp [set, h]

theorem bit_set {B : List Bool} {q : Nat} {x : Bool} (h : q < B.length) (p : Nat) :
    bit (B.set q x) p = if p = q then x else bit B p := by
  unfold bit
  rw [List.getD_eq_getElem?_getD, List.getD_eq_getElem?_getD, List.getElem?_set]
  by_cases e : q = p
  · subst e; simp [h]
  · rw [if_neg e, if_neg (fun h => e h.symm)]

theorem bit_replicate (n : Nat) (p : Nat) : bit (List.replicate n false) p = false := by
  unfold bit
  rw [List.getD_eq_getElem?_getD, List.getElem?_replicate]
  split <;> rfl

theorem rank_of_le {tb : Bool} {B : List Bool} {i : Nat} (h : i ≤ B.length) : rank tb B i = some (cnt tb B i) := by
  simp [rank, h]

theorem cnt_zero (tb : Bool) (B : List Bool) : cnt tb B 0 = 0 := rfl

theorem cnt_succ (tb : Bool) (B : List Bool) (i : Nat) : cnt tb B (i + 1) = cnt tb B i + (bit B i == tb).toNat := rfl

theorem cnt_le (tb : Bool) (B : List Bool) (i : Nat) : cnt tb B i ≤ i := countTrue_le _ _

theorem cnt_mono (tb : Bool) (B : List Bool) {a b : Nat} (h : a ≤ b) : cnt tb B a ≤ cnt tb B b := countTrue_mono _ h

theorem cnt_compl (B : List Bool) (i : Nat) : cnt true B i + cnt false B i = i := by
  have := countTrue_not (fun q => bit B q == true) i
  have e : countTrue (fun q => !(bit B q == true)) i = cnt false B i :=
    countTrue_congr (fun q _ => by cases bit B q <;> rfl)
  have h1 : cnt true B i = countTrue (fun q => bit B q == true) i := rfl
  have := countTrue_le (fun q => bit B q == true) i
  omega

theorem cnt_cons (tb b : Bool) (bs : List Bool) (i : Nat) : cnt tb (b :: bs) (i + 1) = (b == tb).toNat + cnt tb bs i := by
  induction i with
  | zero => rw [cnt_succ, cnt_zero, cnt_zero, bit_cons_zero]; omega
  | succ i ih => rw [cnt_succ, ih, cnt_succ, bit_cons_succ]; omega

theorem selGo_iff (tb : Bool) : ∀ (B : List Bool) (i pos p : Nat), 1 ≤ i →
    (selGo tb B i pos = some p ↔ pos ≤ p ∧ IsSelect (fun q => bit B q == tb) B.length i (p - pos))
  | [], i, pos, p, _ => by
    simp only [selGo, List.length_nil]
    constructor
    · intro h; cases h
    · intro h; exact absurd h.2.1 (by omega)
  | b :: bs, i, pos, p, hi => by
    have hc : ∀ k, countTrue (fun q => bit (b :: bs) q == tb) (k + 1) = (b == tb).toNat + countTrue (fun q => bit bs q == tb) k :=
      fun k => cnt_cons tb b bs k
    simp only [selGo]
    by_cases hb : (b == tb) = true
    · rw [if_pos hb]
      by_cases h1 : i = 1
      · rw [if_pos h1]
        constructor
        · intro h
          obtain rfl := Option.some.inj h
          refine ⟨Nat.le_refl _, ?_, ?_, ?_⟩
          · simp
          · rw [Nat.sub_self]; exact hb
          · rw [Nat.sub_self, h1]; rfl
        · rintro ⟨h0, _, _, h3⟩
          rcases Nat.eq_or_lt_of_le h0 with e | e
          · rw [e]
          · exfalso
            obtain ⟨d, hd⟩ := Nat.exists_eq_add_of_lt e
            have e2 : p - pos = d + 1 := by omega
            rw [e2, hc, hb] at h3
            simp at h3
            omega
      · rw [if_neg h1, selGo_iff tb bs (i - 1) (pos + 1) p (by omega)]
        constructor
        · rintro ⟨h0, h2, h3, h4⟩
          have e2 : p - pos = (p - (pos + 1)) + 1 := by omega
          refine ⟨by omega, ?_, ?_, ?_⟩
          · rw [e2, List.length_cons]; omega
          · rw [e2]; exact h3
          · rw [e2, hc, hb]; simp only [Bool.toNat_true]; omega
        · rintro ⟨h0, h2, h3, h4⟩
          have hne : p ≠ pos := by
            rintro rfl
            rw [Nat.sub_self] at h4
            have : countTrue (fun q => bit (b :: bs) q == tb) 0 = 0 := rfl
            omega
          have e2 : p - pos = (p - (pos + 1)) + 1 := by omega
          rw [e2] at h2 h3 h4
          rw [hc, hb] at h4
          simp only [Bool.toNat_true] at h4
          refine ⟨by omega, ?_, h3, by omega⟩
          rw [List.length_cons] at h2; omega
    · rw [if_neg hb, selGo_iff tb bs i (pos + 1) p hi]
      have hb' : (b == tb) = false := by simpa using hb
      constructor
      · rintro ⟨h0, h2, h3, h4⟩
        have e2 : p - pos = (p - (pos + 1)) + 1 := by omega
        refine ⟨by omega, ?_, ?_, ?_⟩
        · rw [e2, List.length_cons]; omega
        · rw [e2]; exact h3
        · rw [e2, hc, hb']; simp only [Bool.toNat_false]; omega
      · rintro ⟨h0, h2, h3, h4⟩
        have hne : p ≠ pos := by
          rintro rfl
          rw [Nat.sub_self] at h3
          exact hb h3
        have e2 : p - pos = (p - (pos + 1)) + 1 := by omega
        rw [e2] at h2 h3 h4
        rw [hc, hb'] at h4
        simp only [Bool.toNat_false] at h4
        refine ⟨by omega, ?_, h3, by omega⟩
        rw [List.length_cons] at h2; omega

/-- The select contract is mathematical select. -/
theorem select_iff {tb : Bool} {B : List Bool} {i p : Nat} :
    select tb B i = some p ↔ IsSelect (fun q => bit B q == tb) B.length i p := by
  unfold select
  by_cases h : i = 0
  · rw [if_pos h]
    constructor
    · intro h; cases h
    · rintro ⟨_, _, h3⟩; omega
  · rw [if_neg h, selGo_iff tb B i 0 p (by omega)]
    simp

theorem select_exists {tb : Bool} {B : List Bool} {i : Nat} (h1 : 1 ≤ i) (h2 : i ≤ cnt tb B B.length) :
    ∃ p, select tb B i = some p ∧ p < B.length ∧ bit B p = tb ∧ cnt tb B p + 1 = i := by
  obtain ⟨p, hp⟩ := IsSelect.exists h1 h2
  exact ⟨p, select_iff.2 hp, hp.1, by simpa using hp.2.1, hp.2.2⟩

theorem select_eq {tb : Bool} {B : List Bool} {p : Nat} (h : p < B.length) (hb : bit B p = tb) :
    select tb B (cnt tb B p + 1) = some p := select_iff.2 ⟨h, by simpa using hb, rfl⟩

theorem select_some {tb : Bool} {B : List Bool} {i p : Nat} (h : select tb B i = some p) :
    p < B.length ∧ bit B p = tb ∧ cnt tb B p + 1 = i := by
  obtain ⟨h1, h2, h3⟩ := select_iff.1 h
  exact ⟨h1, by simpa using h2, h3⟩

end Sdsl.Bv
