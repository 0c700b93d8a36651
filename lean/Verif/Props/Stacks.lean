/-
  C40, C41: the succinct stacks.

  Reference behaviour: a list (top first). `Op` is one call of the interface, `after ops []` the list after a history.
-/
import Verif.StackHist

namespace Sdsl.Props

open Sdsl.Stack

@[elab_as_elim] theorem snoc_ind {α : Type} {P : List α → Prop} (nil : P []) (append_singleton : ∀ l a, P l → P (l ++ [a])) (l : List α) : P l := by
  have h : ∀ r : List α, P r.reverse := by
    intro r
    induction r with
    | nil => exact nil
    | cons a r ih => rw [List.reverse_cons]; exact append_singleton _ _ ih
  rw [← l.reverse_reverse]; exact h _

/-- One modifying call. -/
inductive StackOp where
  | push (x : Nat)
  | pop
deriving DecidableEq, Repr

/-- Reference stack: `pop` of the empty stack does nothing. -/
def StackOp.apply : StackOp → List Nat → List Nat
  | .push x, L => x :: L
  | .pop, L => L.tail

/-- The reference stack after a history. -/
def stackAfter (ops : List StackOp) : List Nat := ops.foldl (fun L o => o.apply L) []

/-- Every push of the history meets `ok current-contents value`. -/
def StackAllowed (ok : List Nat → Nat → Prop) (ops : List StackOp) : Prop :=
  ∀ pre x post, ops = pre ++ .push x :: post → ok (stackAfter pre) x

theorem stackAfter_snoc (ops : List StackOp) (o : StackOp) : stackAfter (ops ++ [o]) = o.apply (stackAfter ops) := by
  unfold stackAfter; rw [List.foldl_append]; rfl

theorem StackAllowed.init {ok : List Nat → Nat → Prop} {ops : List StackOp} {o : StackOp} (h : StackAllowed ok (ops ++ [o])) : StackAllowed ok ops := by
  intro pre x post e
  exact h pre x (post ++ [o]) (by rw [e]; simp)

theorem StackAllowed.last {ok : List Nat → Nat → Prop} {ops : List StackOp} {x : Nat} (h : StackAllowed ok (ops ++ [.push x])) : ok (stackAfter ops) x :=
  h ops x [] rfl

/-- All stacked values were pushed. -/
theorem stackAfter_all {ok : List Nat → Nat → Prop} {P : Nat → Prop} (hok : ∀ L x, ok L x → P x) {ops : List StackOp} (h : StackAllowed ok ops) :
    ∀ t ∈ stackAfter ops, P t := by
  induction ops using snoc_ind with
  | nil => intro t ht; exact absurd ht (by simp [stackAfter])
  | append_singleton ops o ih =>
    have ih := ih h.init
    rw [stackAfter_snoc]
    cases o with
    | push x =>
      intro t ht
      rcases List.mem_cons.1 ht with rfl | ht
      · exact hok _ _ h.last
      · exact ih t ht
    | pop => intro t ht; exact ih t (List.mem_of_mem_tail ht)

/-- `sorted_stack_support` run on a history. -/
def sssRun (n : Nat) (ops : List StackOp) : Option Sss :=
  ops.foldl (fun s o => s.bind fun s => match o with | .push x => s.push x | .pop => s.pop) (Sss.new n)

/-- `sorted_int_stack` run on a history. -/
def sisRun (n : Nat) (ops : List StackOp) : Option Sis :=
  ops.foldl (fun s o => s.bind fun s => match o with | .push x => s.push x | .pop => s.pop) (Sis.new n)

/-- `sorted_multi_stack_support` run on a history, with the returned booleans (latest first). -/
def smsRun (n : Nat) (ops : List StackOp) : Option (Sms × List Bool) :=
  ops.foldl (fun s o => s.bind fun s => (match o with | .push x => s.1.push x | .pop => s.1.pop : Option (Sms × Bool)).map fun r => (r.1, r.2 :: s.2)) ((Sms.new n).map (·, []))

theorem sssRun_inv {n : Nat} (hn : n + 1 < 2 ^ 63) {ops : List StackOp}
    (h : StackAllowed (fun L x => (∀ t, L.head? = some t → t < x) ∧ x ≤ n) ops) : ∃ s, sssRun n ops = some s ∧ Sss.Inv n s (stackAfter ops) := by
  induction ops using snoc_ind with
  | nil => exact Sss.new_inv n
  | append_singleton ops o ih =>
    obtain ⟨s, h1, h2⟩ := ih h.init
    unfold sssRun at h1 ⊢
    rw [List.foldl_append, h1, stackAfter_snoc]
    cases o with
    | push x => exact Sss.push_inv h2 h.last.2 h.last.1
    | pop => exact Sss.pop_inv hn h2 (stackAfter_all (fun _ _ h => h.2) h.init)

/-- **C40** (`sorted_stack_support`): for every history whose pushes are strictly increasing and at most `n`, no access leaves the allocated memory and
    `size`, `empty` and `top` agree with the list. -/
theorem C40_sorted_stack {n : Nat} (hn : n + 1 < 2 ^ 63) {ops : List StackOp}
    (h : StackAllowed (fun L x => (∀ t, L.head? = some t → t < x) ∧ x ≤ n) ops) :
    ∃ s, sssRun n ops = some s ∧ s.cnt = (stackAfter ops).length ∧ s.empty = (stackAfter ops).isEmpty ∧
      (∀ t, (stackAfter ops).head? = some t → s.getTop = t) ∧ s.stack.length = (n + 1) / 63 + 1 := by
  obtain ⟨s, h1, h2⟩ := sssRun_inv hn h
  refine ⟨s, h1, h2.cnt, ?_, ?_, h2.len⟩
  · unfold Sss.empty
    rw [h2.cnt]
    cases stackAfter ops <;> simp
  · intro t ht
    have hle := stackAfter_all (P := (· ≤ n)) (fun _ _ h => h.2) h
    generalize stackAfter ops = L at *
    cases L with
    | nil => simp at ht
    | cons y L =>
      simp only [List.head?_cons, Option.some.injEq] at ht
      subst ht
      have := hle y (by simp)
      exact Sss.top_eq h2 (by omega)

theorem sisRun_inv {n : Nat} (hn : n + 63 < 2 ^ 63) {ops : List StackOp}
    (h : StackAllowed (fun L x => (∀ t, L.head? = some t → t < x) ∧ x + 63 < 2 ^ 64) ops) : ∃ s, sisRun n ops = some s ∧ Sis.Inv n s (stackAfter ops) := by
  induction ops using snoc_ind with
  | nil => exact Sis.new_inv n
  | append_singleton ops o ih =>
    obtain ⟨s, h1, h2⟩ := ih h.init
    unfold sisRun at h1 ⊢
    rw [List.foldl_append, h1, stackAfter_snoc]
    cases o with
    | push x => exact Sis.push_inv h2 h.last.2 h.last.1
    | pop => exact Sis.pop_inv hn h2

/-- **C40** (`sorted_int_stack`): values above `n` are allowed as well (they go to the overflow vector). -/
theorem C40_sorted_int_stack {n : Nat} (hn : n + 63 < 2 ^ 63) {ops : List StackOp}
    (h : StackAllowed (fun L x => (∀ t, L.head? = some t → t < x) ∧ x + 63 < 2 ^ 64) ops) :
    ∃ s, sisRun n ops = some s ∧ s.cnt = (stackAfter ops).length ∧ s.empty = (stackAfter ops).isEmpty ∧
      (∀ t, (stackAfter ops).head? = some t → s.getTop = t) ∧ s.stack.length = n / 63 + 2 := by
  obtain ⟨s, h1, h2⟩ := sisRun_inv hn h
  refine ⟨s, h1, h2.cnt, ?_, ?_, h2.len⟩
  · unfold Sis.empty
    rw [h2.cnt]
    cases stackAfter ops <;> simp
  · intro t ht
    have hle := stackAfter_all (P := (· + 63 < 2 ^ 64)) (fun _ _ h => h.2) h
    generalize stackAfter ops = L at *
    cases L with
    | nil => simp at ht
    | cons y L =>
      simp only [List.head?_cons, Option.some.injEq] at ht
      subst ht
      exact Sis.top_eq h2 (hle y (by simp))

theorem smsRun_inv {n : Nat} (hn : n + 1 < 2 ^ 63) {ops : List StackOp}
    (h : StackAllowed (fun L x => ((∀ t, L.head? = some t → t ≤ x) ∧ x ≤ n) ∧ L.length < 64 * (n / 64 + 1)) ops) :
    ∃ s bs, smsRun n ops = some (s, bs) ∧ Sms.Inv n s (stackAfter ops) ∧ (stackAfter ops).length ≤ 64 * (n / 64 + 1) := by
  induction ops using snoc_ind with
  | nil =>
    obtain ⟨s, h1, h2⟩ := Sms.new_inv n
    exact ⟨s, [], by unfold smsRun; rw [h1]; rfl, h2, Nat.zero_le _⟩
  | append_singleton ops o ih =>
    obtain ⟨s, bs, h1, h2, h3⟩ := ih h.init
    unfold smsRun at h1 ⊢
    rw [List.foldl_append, h1, stackAfter_snoc]
    cases o with
    | push x =>
      obtain ⟨s', p1, p2⟩ := Sms.push_inv h2 h.last.1.2 h.last.1.1 h.last.2
      refine ⟨s', decide ((stackAfter ops).head? ≠ some x) :: bs, ?_, p2, h.last.2⟩
      show (s.push x).map _ = _
      rw [p1]; rfl
    | pop =>
      obtain ⟨s', p1, p2⟩ := Sms.pop_inv hn h2 (stackAfter_all (fun _ _ h => h.1.2) h.init) h3
      refine ⟨s', (decide (stackAfter ops ≠ []) && decide ((stackAfter ops).tail.head? ≠ (stackAfter ops).head?)) :: bs, ?_, p2, ?_⟩
      · show s.pop.map _ = _
        rw [p1]; rfl
      · show (stackAfter ops).tail.length ≤ _
        rw [List.length_tail]; omega

/-- **C41**, part: for every history of non-decreasing pushes of values at most `n` during which the stack never holds more than `64·(n/64+1)` entries,
    no access leaves the allocated memory, and `size`, `empty` and `top` agree with the list. Missing: longer stacks, for which the claim is false
    (`C41_dup_out_of_bounds`). -/
theorem C41_sorted_multi_stack_partial {n : Nat} (hn : n + 1 < 2 ^ 63) {ops : List StackOp}
    (h : StackAllowed (fun L x => ((∀ t, L.head? = some t → t ≤ x) ∧ x ≤ n) ∧ L.length < 64 * (n / 64 + 1)) ops) :
    ∃ s bs, smsRun n ops = some (s, bs) ∧ s.cnt = (stackAfter ops).length ∧ s.empty = (stackAfter ops).isEmpty ∧
      (∀ t, (stackAfter ops).head? = some t → s.getTop = t) ∧ s.stack.length = (n + 1) / 63 + 1 ∧ s.dup.length = n / 64 + 1 := by
  obtain ⟨s, bs, h1, h2, h3⟩ := smsRun_inv hn h
  refine ⟨s, bs, h1, h2.cnt, ?_, ?_, h2.len, h2.dlen⟩
  · unfold Sms.empty
    rw [h2.cnt]
    cases stackAfter ops <;> simp
  · intro t ht
    have hle := stackAfter_all (P := (· ≤ n)) (fun _ _ h => h.1.2) h
    generalize stackAfter ops = L at *
    cases L with
    | nil => simp at ht
    | cons y L =>
      simp only [List.head?_cons, Option.some.injEq] at ht
      subst ht
      have := hle y (by simp)
      exact Sms.top_eq h2 (by omega)

/-- **C41**, part: after such a history, `push(x)` reports whether `x` is greater than the top (true on the empty stack), and `pop()` whether the top
    changes. -/
theorem C41_returned_flags_partial {n : Nat} (hn : n + 1 < 2 ^ 63) {ops : List StackOp}
    (h : StackAllowed (fun L x => ((∀ t, L.head? = some t → t ≤ x) ∧ x ≤ n) ∧ L.length < 64 * (n / 64 + 1)) ops) :
    ∃ s bs, smsRun n ops = some (s, bs) ∧
      (∀ x, (∀ t, (stackAfter ops).head? = some t → t ≤ x) → x ≤ n → (stackAfter ops).length < 64 * (n / 64 + 1) →
        ∃ s', s.push x = some (s', !(decide ((stackAfter ops).head? = some x)))) ∧
      (∀ x L, stackAfter ops = x :: L → ∃ s', s.pop = some (s', !(decide (L.head? = some x)))) ∧
      (stackAfter ops = [] → s.pop = some (s, false)) := by
  obtain ⟨s, bs, h1, h2, h3⟩ := smsRun_inv hn h
  refine ⟨s, bs, h1, ?_, ?_, ?_⟩
  · intro x hx hxn hl
    obtain ⟨s', p1, -⟩ := Sms.push_inv h2 hxn hx hl
    exact ⟨s', by rw [p1]; simp⟩
  · intro x L e
    obtain ⟨s', p1, -⟩ := Sms.pop_inv hn h2 (stackAfter_all (fun _ _ h => h.1.2) h) h3
    exact ⟨s', by rw [p1, e]; by_cases c : L.head? = some x <;> simp [c]⟩
  · intro e
    have := h2.cnt
    rw [e] at this
    exact if_pos this

/-- **C41** is false beyond that bound: with `n` the largest value, pushing `0` for the `(64·(n/64+1)+1)`-st time accesses `m_duplication_stack` past its end
    (the class documentation does not bound the number of duplicates). -/
theorem C41_dup_out_of_bounds {n : Nat} (hn : n + 1 < 2 ^ 63) :
    smsRun n (List.replicate (64 * (n / 64 + 1) + 1) (.push 0)) = none := by
  have hall : ∀ k, stackAfter (List.replicate k (.push 0)) = List.replicate k 0 := by
    intro k
    induction k with
    | zero => rfl
    | succ k ih => rw [List.replicate_succ', stackAfter_snoc, ih, List.replicate_succ]; rfl
  have hok : StackAllowed (fun L x => ((∀ t, L.head? = some t → t ≤ x) ∧ x ≤ n) ∧ L.length < 64 * (n / 64 + 1))
      (List.replicate (64 * (n / 64 + 1)) (.push 0)) := by
    intro pre x post e
    obtain ⟨hl, hp, hq⟩ := List.replicate_eq_append_iff.1 e
    have hx : StackOp.push x = StackOp.push 0 := by
      have := List.mem_replicate.1 (hq ▸ List.mem_cons_self : StackOp.push x ∈ List.replicate _ _)
      exact this.2
    obtain rfl : x = 0 := StackOp.push.inj hx
    rw [hp, hall]
    refine ⟨⟨fun t ht => ?_, Nat.zero_le _⟩, ?_⟩
    · cases hk : pre.length with
      | zero => rw [hk] at ht; simp at ht
      | succ k => rw [hk, List.replicate_succ] at ht; simp at ht; omega
    · rw [List.length_replicate]
      simp only [List.length_cons] at hl
      omega
  obtain ⟨s, bs, h1, h2, -⟩ := smsRun_inv hn hok
  rw [hall] at h2
  unfold smsRun at h1 ⊢
  rw [List.replicate_succ', List.foldl_append, h1]
  show (s.push 0).map _ = none
  have hc := h2.cnt
  rw [List.length_replicate] at hc
  have hd := h2.dlen
  have hL : (List.replicate (64 * (n / 64 + 1)) 0).head? = some 0 := by
    rw [show 64 * (n / 64 + 1) = (64 * (n / 64 + 1) - 1) + 1 by omega, List.replicate_succ]; rfl
  rw [Sms.push_dup_oob h2 hL (by rw [hc, hd]; omega)]
  rfl

/-! ### Examples -/

example : (let ops := [StackOp.push 3, .push 70, .pop, .push 65, .push 200, .pop]
    (stackAfter ops, (sssRun 200 ops).map fun s => (s.cnt, s.getTop, s.empty))) = ([65, 3], some (2, 65, false)) := by decide +kernel

example : StackAllowed (fun L x => (∀ t, L.head? = some t → t < x) ∧ x ≤ 200) [.push 3, .push 70] := by
  intro pre x post e
  rcases pre with _ | ⟨a, _ | ⟨b, _ | ⟨c, pre⟩⟩⟩ <;> simp [stackAfter, StackOp.apply] at e ⊢
  · omega
  · obtain ⟨rfl, rfl, -⟩ := e; simp

example : (let ops := [StackOp.push 3, .push 70, .push 100000, .push 100001, .pop, .pop]
    (stackAfter ops, (sisRun 200 ops).map fun s => (s.cnt, s.getTop, s.overflow))) = ([70, 3], some (2, 70, [])) := by decide +kernel

example : (let ops := [StackOp.push 3, .push 70, .push 70, .push 70, .pop, .pop, .pop]
    (stackAfter ops, (smsRun 200 ops).map fun s => (s.1.cnt, s.1.getTop, s.2))) =
      ([3], some (1, 3, [true, false, false, false, false, true, true])) := by decide +kernel

end Sdsl.Props
