/-
  The succinct stacks against list stacks: preservation of the representation by every operation.
-/
import Verif.StackLemmas

namespace Sdsl.Stack

open Bits Spec

namespace Sss

/-- `s` represents the list `L` (top first). -/
structure Inv (n : Nat) (s : Sss) (L : List Nat) : Prop where
  nn : s.n = n
  cnt : s.cnt = L.length
  top : s.top = (L.map (· + 1) ++ [0]).headD 0
  rep : Rep s.stack (L.map (· + 1) ++ [0])
  len : s.stack.length = (n + 1) / 63 + 1

theorem new_inv (n : Nat) : ∃ s, new n = some s ∧ Inv n s [] := by
  obtain ⟨m, h1, h2, h3⟩ := init_rep (k := (n + 1) / 63 + 1) (by omega)
  unfold new
  rw [h1, sbind]
  exact ⟨_, rfl, rfl, rfl, rfl, h2, h3⟩

theorem top_eq {n : Nat} {s : Sss} {t : Nat} {L : List Nat} (h : Inv n s (t :: L)) (ht : t + 1 < 2 ^ 64) : s.getTop = t := by
  have := h.top
  unfold getTop
  rw [this]
  show (t + 1 + (2 ^ 64 - 1)) % 2 ^ 64 = t
  omega

theorem push_inv {n : Nat} {s : Sss} {L : List Nat} (h : Inv n s L) {x : Nat} (hx : x ≤ n) (hlt : ∀ t, L.head? = some t → t < x) :
    ∃ s', s.push x = some s' ∧ Inv n s' (x :: L) := by
  have hr := h.rep
  have ht := h.top
  have hl := h.len
  have key : ∃ t S, L.map (· + 1) ++ [0] = t :: S ∧ t < x + 1 := by
    cases L with
    | nil => exact ⟨0, [], rfl, by omega⟩
    | cons t L => exact ⟨t + 1, _, rfl, by have := hlt t rfl; omega⟩
  obtain ⟨t, S, e, hlt'⟩ := key
  rw [e] at hr ht
  obtain ⟨m', h1, h2, h3⟩ := blockPush_eq hr hlt' (x := x + 1) (by rw [hl]; omega)
  unfold push
  rw [ht]
  show ∃ s', ((blockPush s.stack t (x + 1)) >>= _) = some s' ∧ _
  rw [h1, sbind]
  refine ⟨_, rfl, h.nn, by show s.cnt + 1 = _; rw [h.cnt]; rfl, rfl, ?_, by show m'.length = _; omega⟩
  show Rep m' ((x :: L).map (· + 1) ++ [0])
  rw [List.map_cons, List.cons_append, e]; exact h2

theorem pop_inv {n : Nat} (hn : n + 1 < 2 ^ 63) {s : Sss} {L : List Nat} (h : Inv n s L) (hle : ∀ t ∈ L, t ≤ n) : ∃ s', s.pop = some s' ∧ Inv n s' L.tail := by
  unfold pop
  cases L with
  | nil => exact ⟨s, if_pos (by rw [h.cnt]; rfl), h⟩
  | cons x L =>
    rw [if_neg (by rw [h.cnt]; simp)]
    have hr := h.rep
    have ht := h.top
    have key : ∃ t S, L.map (· + 1) ++ [0] = t :: S := by cases L with
      | nil => exact ⟨_, _, rfl⟩
      | cons _ _ => exact ⟨_, _, rfl⟩
    obtain ⟨t, S, e⟩ := key
    rw [List.map_cons, List.cons_append, e] at hr ht
    have hx := hle x (by simp)
    obtain ⟨m', h1, h2, h3⟩ := blockPop_eq hr (by omega)
    rw [ht]
    show ∃ s', ((blockPop s.stack (x + 1)) >>= _) = some s' ∧ _
    rw [h1, sbind]
    refine ⟨_, rfl, h.nn, by show s.cnt - 1 = _; rw [h.cnt]; simp, ?_, ?_, by show m'.length = _; rw [h3]; exact h.len⟩
    · show t = (L.map (· + 1) ++ [0]).headD 0
      rw [e]; rfl
    · show Rep m' (L.map (· + 1) ++ [0])
      rw [e]; exact h2

end Sss

namespace Sis

/-- `s` represents the list `L` (top first). -/
structure Inv (n : Nat) (s : Sis) (L : List Nat) : Prop where
  nn : s.n = n
  cnt : s.cnt = L.length
  top : s.top = (L.map (· + 63) ++ [0]).headD 0
  len : s.stack.length = n / 63 + 2
  split : ∃ H D, L = H ++ D ∧ (∀ x ∈ H, n < x) ∧ (∀ x ∈ D, x ≤ n) ∧ Rep s.stack (D.map (· + 63) ++ [0]) ∧
    s.overflow = if H = [] then [] else H.map (· + 63) ++ [(D.map (· + 63) ++ [0]).headD 0]

theorem new_inv (n : Nat) : ∃ s, new n = some s ∧ Inv n s [] := by
  obtain ⟨m, h1, h2, h3⟩ := init_rep (k := n / 63 + 2) (by omega)
  unfold new
  rw [h1, sbind]
  exact ⟨_, rfl, rfl, rfl, rfl, h3, [], [], rfl, by simp, by simp, h2, rfl⟩

theorem top_eq {n : Nat} {s : Sis} {t : Nat} {L : List Nat} (h : Inv n s (t :: L)) (ht : t + 63 < 2 ^ 64) : s.getTop = t := by
  have := h.top
  unfold getTop
  rw [this]
  show (t + 63 + (2 ^ 64 - 63)) % 2 ^ 64 = t
  omega

theorem push_inv {n : Nat} {s : Sis} {L : List Nat} (h : Inv n s L) {x : Nat} (hx : x + 63 < 2 ^ 64) (hlt : ∀ t, L.head? = some t → t < x) :
    ∃ s', s.push x = some s' ∧ Inv n s' (x :: L) := by
  obtain ⟨H, D, e1, e2, e3, e4, e5⟩ := h.split
  have ht := h.top
  unfold push
  rw [Nat.mod_eq_of_lt hx, h.nn]
  dsimp only
  by_cases c : x > n
  · rw [if_pos (by omega)]
    refine ⟨_, rfl, rfl, by show s.cnt + 1 = _; rw [h.cnt]; rfl, rfl, h.len, x :: H, D, by rw [e1]; rfl, ?_, e3, e4, ?_⟩
    · intro y hy
      rw [List.mem_cons] at hy
      rcases hy with rfl | hy
      · exact c
      · exact e2 y hy
    · show (x + 63) :: (if s.overflow.isEmpty then [s.top] else s.overflow) = _
      rw [e5, if_neg (List.cons_ne_nil x H), List.map_cons, List.cons_append]
      by_cases c2 : H = []
      · subst c2
        rw [if_pos rfl, ht, e1]; rfl
      · rw [if_neg c2, if_neg (by simp)]
  · rw [if_neg (by omega)]
    have hH : H = [] := by
      cases H with
      | nil => rfl
      | cons y H =>
        have h1 := e2 y (by simp)
        have h2 := hlt y (by rw [e1]; rfl)
        omega
    subst hH
    have e1 : L = D := e1
    subst e1
    have key : ∃ t S, L.map (· + 63) ++ [0] = t :: S ∧ t < x + 63 := by
      cases L with
      | nil => exact ⟨0, [], rfl, by omega⟩
      | cons t L => exact ⟨t + 63, _, rfl, by have := hlt t rfl; omega⟩
    obtain ⟨t, S, e, hlt'⟩ := key
    rw [e] at e4 ht
    have hl := h.len
    obtain ⟨m', h1, h2, h3⟩ := blockPush_eq e4 hlt' (x := x + 63) (by rw [hl]; omega)
    rw [ht]
    show ∃ s', ((blockPush s.stack t (x + 63)) >>= _) = some s' ∧ _
    rw [h1, sbind]
    refine ⟨_, rfl, rfl, by show s.cnt + 1 = _; rw [h.cnt]; rfl, rfl, by show m'.length = _; omega, [], x :: L, rfl, by simp, ?_, ?_, e5⟩
    · intro y hy
      rw [List.mem_cons] at hy
      rcases hy with rfl | hy
      · omega
      · exact e3 y hy
    · show Rep m' ((x :: L).map (· + 63) ++ [0])
      rw [List.map_cons, List.cons_append, e]; exact h2

theorem pop_inv {n : Nat} (hn : n + 63 < 2 ^ 63) {s : Sis} {L : List Nat} (h : Inv n s L) : ∃ s', s.pop = some s' ∧ Inv n s' L.tail := by
  unfold pop
  cases L with
  | nil => exact ⟨s, if_pos (by rw [h.cnt]; rfl), h⟩
  | cons x L =>
    rw [if_neg (by rw [h.cnt]; simp)]
    obtain ⟨H, D, e1, e2, e3, e4, e5⟩ := h.split
    have ht : s.top = x + 63 := h.top
    rw [ht, h.nn]
    cases H with
    | cons y H =>
      have e1' : x = y ∧ L = H ++ D := List.cons.inj e1
      clear e1
      obtain ⟨rfl, e1⟩ := e1'
      have := e2 x (by simp)
      rw [if_pos (by omega), e5, if_neg (by simp)]
      cases H with
      | nil =>
        refine ⟨_, rfl, rfl, by show s.cnt - 1 = _; rw [h.cnt]; simp, ?_, h.len, [], D, e1, by simp, e3, e4, rfl⟩
        show (D.map (· + 63) ++ [0]).headD 0 = _
        rw [List.tail_cons, e1]; rfl
      | cons z H =>
        have hm : ∃ c o, H.map (· + 63) ++ [(D.map (· + 63) ++ [0]).headD 0] = c :: o := by
          cases H with
          | nil => exact ⟨_, _, rfl⟩
          | cons _ _ => exact ⟨_, _, rfl⟩
        obtain ⟨c, o, hco⟩ := hm
        simp only [List.map_cons, List.cons_append, hco]
        refine ⟨_, rfl, rfl, by show s.cnt - 1 = _; rw [h.cnt]; simp, ?_, h.len, z :: H, D, e1, fun w hw => e2 w (by simp [List.mem_cons.1 hw]), e3, e4, ?_⟩
        · show z + 63 = _
          rw [List.tail_cons, e1]; rfl
        · show (z + 63) :: c :: o = _
          rw [if_neg (by simp), List.map_cons, List.cons_append, hco]
    | nil =>
      have e1 : x :: L = D := e1
      subst e1
      have hx := e3 x (by simp)
      rw [if_neg (by omega)]
      have key : ∃ t S, L.map (· + 63) ++ [0] = t :: S := by cases L with
        | nil => exact ⟨_, _, rfl⟩
        | cons _ _ => exact ⟨_, _, rfl⟩
      obtain ⟨t, S, e⟩ := key
      rw [List.map_cons, List.cons_append, e] at e4
      obtain ⟨m', h1, h2, h3⟩ := blockPop_eq e4 (by omega)
      rw [h1, sbind]
      refine ⟨_, rfl, rfl, by show s.cnt - 1 = _; rw [h.cnt]; simp, ?_, by show m'.length = _; rw [h3]; exact h.len, [], L, rfl, by simp,
        fun w hw => e3 w (by simp [hw]), ?_, e5⟩
      · show t = (L.map (· + 63) ++ [0]).headD 0
        rw [e]; rfl
      · show Rep m' (L.map (· + 63) ++ [0])
        rw [e]; exact h2

end Sis

namespace Sms

/-- The distinct positions. -/
def dd : List Nat → List Nat
  | [] => [0]
  | x :: L => if L.head? = some x then dd L else (x + 1) :: dd L

/-- Is entry `i` (from the bottom) equal to the one below it? -/
def dupBit : List Nat → Nat → Bool
  | [], _ => false
  | x :: L, i => if i = L.length then decide (L.head? = some x) else dupBit L i

theorem dupBit_ge {L : List Nat} {i : Nat} (h : L.length ≤ i) : dupBit L i = false := by
  induction L with
  | nil => rfl
  | cons x L ih =>
    unfold dupBit
    simp only [List.length_cons] at h
    rw [if_neg (by omega)]; exact ih (by omega)

theorem dd_head (L : List Nat) : ∃ S, dd L = (L.head?.map (· + 1)).getD 0 :: S := by
  induction L with
  | nil => exact ⟨[], rfl⟩
  | cons x L ih =>
    unfold dd
    by_cases c : L.head? = some x
    · rw [if_pos c]
      obtain ⟨S, h⟩ := ih
      rw [c] at h
      exact ⟨S, h⟩
    · rw [if_neg c]; exact ⟨_, rfl⟩

/-- `s` represents the list `L` (top first). -/
structure Inv (n : Nat) (s : Sms) (L : List Nat) : Prop where
  nn : s.n = n
  cnt : s.cnt = L.length
  top : s.top = (dd L).headD 0
  rep : Rep s.stack (dd L)
  len : s.stack.length = (n + 1) / 63 + 1
  dlen : s.dup.length = n / 64 + 1
  dup : ∀ i, bitAt s.dup i = dupBit L i

theorem new_inv (n : Nat) : ∃ s, new n = some s ∧ Inv n s [] := by
  obtain ⟨m, h1, h2, h3⟩ := init_rep (k := (n + 1) / 63 + 1) (by omega)
  unfold new
  rw [h1, sbind]
  refine ⟨_, rfl, rfl, rfl, rfl, h2, h3, by simp, fun i => ?_⟩
  show bitAt (List.replicate (n / 64 + 1) 0#64) i = false
  unfold bitAt
  rw [List.getElem?_replicate]
  by_cases c : i / 64 < n / 64 + 1
  · rw [if_pos c]; simp
  · rw [if_neg c]

theorem top_eq {n : Nat} {s : Sms} {t : Nat} {L : List Nat} (h : Inv n s (t :: L)) (ht : t + 1 < 2 ^ 64) : s.getTop = t := by
  have := h.top
  unfold getTop
  obtain ⟨S, e⟩ := dd_head (t :: L)
  rw [this, e]
  show (t + 1 + (2 ^ 64 - 1)) % 2 ^ 64 = t
  omega

theorem bitAt_xor {m : Mem} {c : Nat} (hc : c / 64 < m.length) (i : Nat) :
    bitAt (m.set (c / 64) (m[c / 64] ^^^ 1#64 <<< (c % 64))) i = Bool.xor (bitAt m i) (decide (i = c)) := by
  unfold bitAt
  rw [List.getElem?_set]
  by_cases h : c / 64 = i / 64
  · rw [if_pos h, if_pos hc, ← h, List.getElem?_eq_getElem hc]
    dsimp only
    rw [BitVec.getLsbD_xor, BitVec.getLsbD_shiftLeft, BitVec.getLsbD_one]
    congr 1
    have := Nat.mod_lt i (show 64 > 0 by decide)
    have hi := Nat.div_add_mod i 64
    have hc := Nat.div_add_mod c 64
    by_cases h2 : i = c
    · subst h2; simp [this]
    · have : i % 64 ≠ c % 64 := by omega
      simp [h2]; omega
  · rw [if_neg h]
    have : i ≠ c := fun h' => h (by rw [h'])
    simp [this]

theorem bit_test {w : Word} {k : Nat} : ((w >>> k) &&& 1#64 = 0#64 ↔ w.getLsbD k = false) ∧ ((w >>> k) &&& 1#64 = 1#64 ↔ w.getLsbD k = true) := by
  have h : (w >>> k) &&& 1#64 = if w.getLsbD k then 1#64 else 0#64 := by
    apply BitVec.eq_of_getLsbD_eq
    intro i hi
    rw [BitVec.getLsbD_and, BitVec.getLsbD_ushiftRight, BitVec.getLsbD_one]
    by_cases c : i = 0
    · subst c
      cases w.getLsbD k <;> simp_all
    · cases w.getLsbD k <;> simp [c]
  rw [h]
  cases w.getLsbD k <;> simp

theorem push_inv {n : Nat} {s : Sms} {L : List Nat} (h : Inv n s L) {x : Nat} (hx : x ≤ n) (hle : ∀ t, L.head? = some t → t ≤ x)
    (hcnt : L.length < 64 * (n / 64 + 1)) :
    ∃ s', s.push x = some (s', decide (L.head? ≠ some x)) ∧ Inv n s' (x :: L) := by
  obtain ⟨S, e⟩ := dd_head L
  have hr := h.rep
  have ht := h.top
  have hl := h.len
  have hd := h.dlen
  rw [e] at hr ht
  have f := fact hr.dec
  have hb : (x + 1) / 63 < s.stack.length := by rw [hl]; omega
  unfold push
  rw [hr.ld hb, sbind, shr_of_lt (by have := Nat.mod_lt (x + 1) (show 63 > 0 by decide); omega), sbind]
  by_cases c : L.head? = some x
  · rw [c] at hr f e
    have f : Fact (x + 1) ((x + 1) :: S) := f
    have hbit : (Stack.rep ((x + 1) :: S) ((x + 1) / 63)).getLsbD ((x + 1) % 63) = true := by
      rw [← f.log]
      exact (log2_isHi f.ne).2.1
    rw [c]
    show ∃ s', (if (Stack.rep ((x + 1) :: S) ((x + 1) / 63)) >>> ((x + 1) % 63) &&& 1#64 = 0#64 then _ else _) = _ ∧ _
    rw [if_neg (by rw [bit_test.1, hbit]; simp)]
    have hcd : s.cnt / 64 < s.dup.length := by rw [h.cnt, hd]; omega
    rw [ld_of_lt hcd, sbind, shl_of_lt (Nat.mod_lt _ (by decide)), sbind, st_of_lt hcd, sbind]
    refine ⟨_, congrArg some (Prod.ext rfl (by simp)), h.nn, by show s.cnt + 1 = _; rw [h.cnt]; rfl, ?_, ?_, hl, by simpa using hd, fun i => ?_⟩
    · show s.top = (dd (x :: L)).headD 0
      unfold dd
      rw [if_pos c]; exact h.top
    · show Rep s.stack (dd (x :: L))
      unfold dd
      rw [if_pos c]; exact h.rep
    · show bitAt (s.dup.set (s.cnt / 64) _) i = _
      rw [bitAt_xor hcd, h.dup i, h.cnt]
      conv => rhs; unfold dupBit
      by_cases ci : i = L.length
      · rw [if_pos ci, ci, dupBit_ge (Nat.le_refl _)]; simp [c]
      · rw [if_neg ci]; simp [ci]
  · have hlt : (L.head?.map (· + 1)).getD 0 < x + 1 := by
      cases hL : L.head? with
      | none => simp
      | some t =>
        have := hle t hL
        have : t ≠ x := fun h' => c (by rw [hL, h'])
        simp; omega
    generalize (L.head?.map (· + 1)).getD 0 = t at *
    have hbit : (Stack.rep (t :: S) ((x + 1) / 63)).getLsbD ((x + 1) % 63) = false := by
      have hdt := Nat.div_add_mod t 63
      have hdx := Nat.div_add_mod (x + 1) 63
      by_cases c2 : t / 63 = (x + 1) / 63
      · rw [← c2]
        apply (log2_isHi f.ne).2.2
        rw [f.log]; omega
      · rw [f.above _ (by omega)]; simp
    rw [if_pos (bit_test.1.2 hbit)]
    obtain ⟨m', h1, h2, h3⟩ := blockPush_eq hr hlt (x := x + 1) (by rw [hl]; omega)
    rw [ht]
    show ∃ s', ((blockPush s.stack t (x + 1)) >>= _) = some (s', _) ∧ _
    rw [h1, sbind]
    refine ⟨_, congrArg some (Prod.ext rfl (by simp [c])), h.nn, by show s.cnt + 1 = _; rw [h.cnt]; rfl, ?_, ?_, by show m'.length = _; omega, hd, fun i => ?_⟩
    · show x + 1 = (dd (x :: L)).headD 0
      unfold dd
      rw [if_neg c]; rfl
    · show Rep m' (dd (x :: L))
      unfold dd
      rw [if_neg c, e]; exact h2
    · show bitAt s.dup i = _
      rw [h.dup i]
      conv => rhs; unfold dupBit
      by_cases ci : i = L.length
      · rw [if_pos ci, ci, dupBit_ge (Nat.le_refl _)]; simp [c]
      · rw [if_neg ci]

theorem pop_inv {n : Nat} (hn : n + 1 < 2 ^ 63) {s : Sms} {L : List Nat} (h : Inv n s L) (hle : ∀ t ∈ L, t ≤ n) (hcnt : L.length ≤ 64 * (n / 64 + 1)) :
    ∃ s', s.pop = some (s', decide (L ≠ []) && decide (L.tail.head? ≠ L.head?)) ∧ Inv n s' L.tail := by
  unfold pop
  cases L with
  | nil => exact ⟨s, if_pos (by rw [h.cnt]; rfl), h⟩
  | cons x L =>
    have hcn : s.cnt - 1 = L.length := by rw [h.cnt]; simp
    have hd := h.dlen
    simp only [List.length_cons] at hcnt
    rw [if_neg (by rw [h.cnt]; simp), hcn]
    dsimp only
    have hcd : L.length / 64 < s.dup.length := by rw [hd]; omega
    rw [ld_of_lt hcd, sbind, shr_of_lt (Nat.mod_lt _ (by decide)), sbind]
    have hbit : (s.dup[L.length / 64]).getLsbD (L.length % 64) = decide (L.head? = some x) := by
      have := h.dup L.length
      unfold dupBit at this
      rw [if_pos rfl] at this
      unfold bitAt at this
      rw [List.getElem?_eq_getElem hcd] at this
      exact this
    have hdup : ∀ i, dupBit (x :: L) i = if i = L.length then decide (L.head? = some x) else dupBit L i := fun i => rfl
    by_cases c : L.head? = some x
    · rw [if_pos (by rw [bit_test.2, hbit]; simp [c]), shl_of_lt (Nat.mod_lt _ (by decide)), sbind, st_of_lt hcd, sbind]
      refine ⟨_, congrArg some (Prod.ext rfl (by simp [c])), h.nn, rfl, ?_, ?_, h.len, by simpa using hd, fun i => ?_⟩
      · show s.top = (dd L).headD 0
        rw [h.top, show dd (x :: L) = dd L from if_pos c]
      · have := h.rep
        unfold dd at this
        rw [if_pos c] at this
        exact this
      · show bitAt (s.dup.set (L.length / 64) _) i = _
        rw [bitAt_xor hcd, h.dup i, hdup]
        by_cases ci : i = L.length
        · rw [if_pos ci, List.tail_cons, ci, dupBit_ge (Nat.le_refl _)]; simp [c]
        · rw [if_neg ci]; simp [ci]
    · rw [if_neg (by rw [bit_test.2, hbit]; simp [c])]
      obtain ⟨S, e⟩ := dd_head L
      have hr := h.rep
      have ht := h.top
      unfold dd at hr ht
      rw [if_neg c, e] at hr
      rw [if_neg c] at ht
      have hx := hle x (by simp)
      obtain ⟨m', h1, h2, h3⟩ := blockPop_eq hr (by omega)
      rw [ht]
      show ∃ s', ((blockPop s.stack (x + 1)) >>= _) = some (s', _) ∧ _
      rw [h1, sbind]
      refine ⟨_, congrArg some (Prod.ext rfl (by simp [c])), h.nn, rfl, ?_, ?_, by show m'.length = _; rw [h3]; exact h.len, hd, fun i => ?_⟩
      · show _ = (dd L).headD 0
        rw [e]; rfl
      · show Rep m' (dd L)
        rw [e]; exact h2
      · show bitAt s.dup i = _
        rw [h.dup i, hdup]
        by_cases ci : i = L.length
        · rw [if_pos ci, List.tail_cons, ci, dupBit_ge (Nat.le_refl _)]; simp [c]
        · rw [if_neg ci]; rfl

theorem push_dup_oob {n : Nat} {s : Sms} {L : List Nat} (h : Inv n s L) {x : Nat} (c : L.head? = some x) (hc : s.dup.length ≤ s.cnt / 64) :
    s.push x = none := by
  obtain ⟨S, e⟩ := dd_head L
  have hr := h.rep
  rw [e, c] at hr
  have hr : Rep s.stack ((x + 1) :: S) := hr
  have f := fact hr.dec
  have hsm := hr.small
  have hsm : x + 1 < 63 * s.stack.length := hsm
  unfold push
  rw [hr.ld (by omega), sbind, shr_of_lt (by have := Nat.mod_lt (x + 1) (show 63 > 0 by decide); omega), sbind]
  have hbit : (Stack.rep ((x + 1) :: S) ((x + 1) / 63)).getLsbD ((x + 1) % 63) = true := by
    rw [← f.log]
    exact (log2_isHi f.ne).2.1
  rw [if_neg (by rw [bit_test.1, hbit]; simp)]
  have : ld s.dup (s.cnt / 64) = none := by
    unfold ld
    exact List.getElem?_eq_none hc
  rw [this]; rfl

end Sms

end Sdsl.Stack
