/-
  C61: the succinct range minimum structures (include/sdsl/rmq_succinct_sct.hpp, include/sdsl/rmq_succinct_sada.hpp).
-/
import Verif.RmqSctLemmas

namespace Sdsl.Props

open Spec

/-- `p` is the smallest position of a minimum of `vs` in `[l, r]`. -/
def LeftmostMin (vs : List Nat) (l r p : Nat) : Prop :=
  l ≤ p ∧ p ≤ r ∧ (∀ k, l ≤ k → k ≤ r → vs.getD p 0 ≤ vs.getD k 0) ∧ ∀ k, l ≤ k → k < p → vs.getD p 0 < vs.getD k 0

/-- `p` is the smallest position of a maximum of `vs` in `[l, r]`. -/
def LeftmostMax (vs : List Nat) (l r p : Nat) : Prop :=
  l ≤ p ∧ p ≤ r ∧ (∀ k, l ≤ k → k ≤ r → vs.getD k 0 ≤ vs.getD p 0) ∧ ∀ k, l ≤ k → k < p → vs.getD k 0 < vs.getD p 0

theorem best_min {vs : List Nat} {l r p : Nat} (h : RmqSct.Best true vs l r p) : LeftmostMin vs l r p :=
  ⟨h.1, h.2.1, fun k h1 h2 => Nat.le_of_not_lt (h.2.2.1 k h1 h2), h.2.2.2⟩

theorem best_max {vs : List Nat} {l r p : Nat} (h : RmqSct.Best false vs l r p) : LeftmostMax vs l r p :=
  ⟨h.1, h.2.1, fun k h1 h2 => Nat.le_of_not_lt (h.2.2.1 k h1 h2), h.2.2.2⟩

/-- **C61** `rmq_succinct_sct<true>` is constructed and answers every query with the smallest position of a minimum, if the small blocks of its
`bp_support_sada` consist of whole bytes and a medium block has at least two of them (default: 256 and 32). -/
theorem C61_sct_min (vs : List Nat) {S D : Nat} (hn : 4 * vs.length + 2 < 2 ^ 64) (pS : 0 < S) (bS : S + 2 < 2 ^ 64) (h8 : S % 8 = 0) (hD : 2 ≤ D) :
    ∃ s, RmqSct.new vs true S D = some s ∧ ∀ l r, l ≤ r → r < vs.length → ∃ p, RmqSct.query s l r = some p ∧ LeftmostMin vs l r p := by
  obtain ⟨s, e, h⟩ := RmqSct.query_ok (mn := true) (vs := vs) hn pS bS h8 hD
  refine ⟨s, e, fun l r h1 h2 => ?_⟩
  obtain ⟨p, e, h⟩ := h l r h1 h2
  exact ⟨p, e, best_min h⟩

/-- **C61** `rmq_succinct_sct<false>`: the smallest position of a maximum. -/
theorem C61_sct_max (vs : List Nat) {S D : Nat} (hn : 4 * vs.length + 2 < 2 ^ 64) (pS : 0 < S) (bS : S + 2 < 2 ^ 64) (h8 : S % 8 = 0) (hD : 2 ≤ D) :
    ∃ s, RmqSct.new vs false S D = some s ∧ ∀ l r, l ≤ r → r < vs.length → ∃ p, RmqSct.query s l r = some p ∧ LeftmostMax vs l r p := by
  obtain ⟨s, e, h⟩ := RmqSct.query_ok (mn := false) (vs := vs) hn pS bS h8 hD
  refine ⟨s, e, fun l r h1 h2 => ?_⟩
  obtain ⟨p, e, h⟩ := h l r h1 h2
  exact ⟨p, e, best_max h⟩

/-- **C61** `rmq_succinct_sada<true>`: the extended Cartesian tree is written completely, whatever the memory contained before, and every query yields
the smallest position of a minimum, for all block sizes. -/
theorem C61_sada_min (vs : List Nat) {S D : Nat} {m0 : Mem} (hn : 8 * vs.length + 2 < 2 ^ 64) (pS : 0 < S) (bS : S + 2 < 2 ^ 64) (pD : 0 < D) (hW : 4 * vs.length ≤ 64 * m0.length) :
    ∃ s, RmqSct.newSada vs true S D m0 = some s ∧ ∀ l r, l ≤ r → r < vs.length → ∃ p, RmqSct.querySada s l r = some p ∧ LeftmostMin vs l r p := by
  obtain ⟨s, e, h⟩ := RmqSct.querySada_ok (mn := true) (vs := vs) hn pS bS pD hW
  refine ⟨s, e, fun l r h1 h2 => ?_⟩
  obtain ⟨p, e, h⟩ := h l r h1 h2
  exact ⟨p, e, best_min h⟩

/-- **C61** `rmq_succinct_sada<false>`: the smallest position of a maximum. -/
theorem C61_sada_max (vs : List Nat) {S D : Nat} {m0 : Mem} (hn : 8 * vs.length + 2 < 2 ^ 64) (pS : 0 < S) (bS : S + 2 < 2 ^ 64) (pD : 0 < D) (hW : 4 * vs.length ≤ 64 * m0.length) :
    ∃ s, RmqSct.newSada vs false S D m0 = some s ∧ ∀ l r, l ≤ r → r < vs.length → ∃ p, RmqSct.querySada s l r = some p ∧ LeftmostMax vs l r p := by
  obtain ⟨s, e, h⟩ := RmqSct.querySada_ok (mn := false) (vs := vs) hn pS bS pD hW
  refine ⟨s, e, fun l r h1 h2 => ?_⟩
  obtain ⟨p, e, h⟩ := h l r h1 h2
  exact ⟨p, e, best_max h⟩

example : (RmqSct.new [4, 2, 5, 2, 9, 1, 1] true 8 2).bind (fun s => RmqSct.query s 0 4) = some 1 := by decide +kernel
example : (RmqSct.newSada [4, 2, 5, 2, 9, 1, 1] false 8 2 [-1#64]).bind (fun s => RmqSct.querySada s 0 6) = some 4 := by decide +kernel
example : 8 * [4, 2, 5, 2, 9, 1, 1].length + 2 < 2 ^ 64 ∧ 256 % 8 = 0 ∧ 256 + 2 < 2 ^ 64 ∧ 4 * [4, 2, 5, 2, 9, 1, 1].length ≤ 64 * [(-1#64 : Word)].length := by decide

end Sdsl.Props
