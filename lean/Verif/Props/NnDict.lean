/-
  C42: `nn_dict_dynamic` is a set of positions with nearest-neighbour queries.
-/
import Verif.NnNext

namespace Sdsl.Props

open Sdsl.Nn

/-- Contents after a list of assignments `d[i] = x`: the last assignment counts, initially everything is 0. -/
def nnAfter (ops : List (Nat × Bool)) (i : Nat) : Bool := ops.foldl (fun b o => if o.1 = i then o.2 else b) false

/-- The dictionary for `n` positions after a list of assignments. -/
def nnRun (n : Nat) (ops : List (Nat × Bool)) : Option Nn := ops.foldl (fun s o => s.bind fun s => assign s o.1 o.2) (new n)

theorem nnRun_inv {n : Nat} (h0 : 0 < n) (hn : n + 63 < 2 ^ 64) {ops : List (Nat × Bool)} (h : ∀ o ∈ ops, o.1 < n) :
    ∃ s d, nnRun n ops = some s ∧ Inv s n d (fun i => nnAfter ops i = true) ∧ ∃ s0, new n = some s0 ∧ s0.depth = d := by
  have key : ∀ (ops : List (Nat × Bool)) (s : Nn) (d : Nat) (S : Nat → Bool), (∀ o ∈ ops, o.1 < n) → Inv s n d (fun i => S i = true) →
      ∃ s', ops.foldl (fun s o => s.bind fun s => assign s o.1 o.2) (some s) = some s' ∧
        Inv s' n d (fun i => ops.foldl (fun b o => if o.1 = i then o.2 else b) (S i) = true) := by
    intro ops
    induction ops with
    | nil => intro s d S _ hS; exact ⟨s, rfl, hS⟩
    | cons o ops ih =>
      intro s d S ho hS
      obtain ⟨s1, h1, h2⟩ := assign_inv hS (ho o (by simp)) o.2
      rw [List.foldl_cons]
      show ∃ s', ops.foldl _ (assign s o.1 o.2) = some s' ∧ _
      rw [h1]
      refine ih s1 d (fun i => if o.1 = i then o.2 else S i) (fun o' ho' => ho o' (by simp [ho'])) ?_
      have e : (fun i => (if o.1 = i then o.2 else S i) = true) = fun i => if i = o.1 then o.2 = true else S i = true := by
        funext i
        by_cases c : i = o.1
        · rw [if_pos c, if_pos c.symm]
        · rw [if_neg c, if_neg (fun h => c h.symm)]
      rw [e]; exact h2
  obtain ⟨s, d, h1, h2⟩ := new_inv h0 (by omega)
  obtain ⟨s', h3, h4⟩ := key ops s d (fun _ => false) h (by simpa using h2)
  exact ⟨s', d, by unfold nnRun; rw [h1]; exact h3, h4, s, h1, h2.geo.depth⟩

/-- `r` is the least member `≥ i`, or `n` if there is none. -/
def NnNextIs (n : Nat) (S : Nat → Bool) (i r : Nat) : Prop :=
  (S r = true ∧ i ≤ r ∧ ∀ j, S j = true → i ≤ j → r ≤ j) ∨ (r = n ∧ ∀ j, S j = true → ¬i ≤ j)

/-- `r` is the greatest member `≤ i`, or `n` if there is none. -/
def NnPrevIs (n : Nat) (S : Nat → Bool) (i r : Nat) : Prop :=
  (S r = true ∧ r ≤ i ∧ ∀ j, S j = true → j ≤ i → j ≤ r) ∨ (r = n ∧ ∀ j, S j = true → ¬j ≤ i)

/-- **C42**, membership: after every history of assignments `operator[]` returns the last written value; no access leaves the memory. -/
theorem C42_membership {n : Nat} (h0 : 0 < n) (hn : n + 63 < 2 ^ 64) {ops : List (Nat × Bool)} (h : ∀ o ∈ ops, o.1 < n) :
    ∃ s, nnRun n ops = some s ∧ s.size = n ∧ ∀ i, i < n → get s i = some (nnAfter ops i) := by
  obtain ⟨s, d, h1, h2, -⟩ := nnRun_inv h0 hn h
  refine ⟨s, h1, h2.geo.size, fun i hi => ?_⟩
  obtain ⟨b, h3, h4⟩ := get_eq h2 hi
  rw [h3]
  congr 1
  exact Bool.eq_iff_iff.2 h4

/-- **C42**, part: after every history `next` and `prev` return the nearest members, provided a shift by 64 (or by a negative amount) yields some word, whichever.
    Missing: C++ leaves these shifts undefined (`C42_shift_undefined`). -/
theorem C42_next_prev_partial {n : Nat} (h0 : 0 < n) (hn : n + 63 < 2 ^ 64) {ops : List (Nat × Bool)} (h : ∀ o ∈ ops, o.1 < n) (junk : Word) :
    ∃ s, nnRun n ops = some s ∧ ∀ i, i < n →
      (∃ r, next (some junk) s i = some r ∧ NnNextIs n (nnAfter ops) i r) ∧ (∃ r, prev (some junk) s i = some r ∧ NnPrevIs n (nnAfter ops) i r) := by
  obtain ⟨s, d, h1, h2, -⟩ := nnRun_inv h0 hn h
  exact ⟨s, h1, fun i hi => ⟨next_eq h2 junk hi, prev_eq h2 junk hi⟩⟩

/-- **C42**, part: with strict C++ semantics every answer that is reached without undefined behaviour is right. -/
theorem C42_defined_answers_partial {n : Nat} (h0 : 0 < n) (hn : n + 63 < 2 ^ 64) {ops : List (Nat × Bool)} (h : ∀ o ∈ ops, o.1 < n) :
    ∃ s, nnRun n ops = some s ∧ ∀ i, i < n →
      (∀ r, next none s i = some r → NnNextIs n (nnAfter ops) i r) ∧ (∀ r, prev none s i = some r → NnPrevIs n (nnAfter ops) i r) := by
  obtain ⟨s, h1, h2⟩ := C42_next_prev_partial h0 hn h 0#64
  refine ⟨s, h1, fun i hi => ⟨fun r hr => ?_, fun r hr => ?_⟩⟩
  · obtain ⟨r', h3, h4⟩ := (h2 i hi).1
    have := next_mono 0#64 hr
    rw [h3] at this
    exact Option.some.inj this ▸ h4
  · obtain ⟨r', h3, h4⟩ := (h2 i hi).2
    have := prev_mono 0#64 hr
    rw [h3] at this
    exact Option.some.inj this ▸ h4

/-- **C42**: in a dictionary of up to 63 positions nothing is shifted out of range. -/
theorem C42_small {n : Nat} (h0 : 0 < n) (hn : n < 64) {ops : List (Nat × Bool)} (h : ∀ o ∈ ops, o.1 < n) :
    ∃ s, nnRun n ops = some s ∧ ∀ i, i < n →
      (∃ r, next none s i = some r ∧ NnNextIs n (nnAfter ops) i r) ∧ (∃ r, prev none s i = some r ∧ NnPrevIs n (nnAfter ops) i r) := by
  obtain ⟨s, d, h1, h2, s0, h7, h8⟩ := nnRun_inv h0 (by omega) h
  have hd : s.depth = 0 := by rw [h2.geo.depth, ← h8]; exact new_depth hn h7
  refine ⟨s, h1, fun i hi => ?_⟩
  have e := no_ub hd (i := i) 0#64
  obtain ⟨r1, h3, h4⟩ := next_eq h2 0#64 hi
  obtain ⟨r2, h5, h6⟩ := prev_eq h2 0#64 hi
  exact ⟨⟨r1, by rw [e.1]; exact h3, h4⟩, ⟨r2, by rw [e.2]; exact h5, h6⟩⟩

/-- Finding: `next` shifts a 64-bit word by 64 when it leaves the last child of a node, and `prev` shifts by `63-255` when it leaves the first child. -/
theorem C42_shift_undefined :
    (nnRun 4033 []).bind (next none · 4032) = none ∧ (nnRun 64 []).bind (prev none · 5) = none ∧
    (nnRun 4033 []).bind (next (some 7#64) · 4032) = some 4033 ∧ (nnRun 64 []).bind (prev (some 7#64) · 5) = some 64 := by decide +kernel

example : ((nnRun 5000 [(3, true), (4100, true), (4999, true), (3, false), (70, true)]).bind fun s => do
    pure [← next (some 0#64) s 0, ← next (some 0#64) s 71, ← next (some 0#64) s 4101, ← prev (some 0#64) s 4099, ← prev (some 0#64) s 69]) =
    some [70, 4100, 4999, 70, 5000] := by decide +kernel

example : (nnRun 50 [(3, true), (40, true)]).bind (next none · 4) = some 40 := by decide +kernel

end Sdsl.Props
