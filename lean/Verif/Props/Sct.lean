/-
  C60: super-Cartesian trees as balanced parentheses (include/sdsl/suffix_tree_helper.hpp).
-/
import Verif.SctCode

namespace Sdsl.Props

open Spec

/-- The value at position `k` is strictly in front of the value at position `s`: smaller if the upper levels contain minima, larger otherwise. -/
def InFront (minimum : Bool) (vs : List Nat) (k s : Nat) : Prop :=
  if minimum then vs.getD k 0 < vs.getD s 0 else vs.getD s 0 < vs.getD k 0

/-- `b` is the parentheses sequence of the super-Cartesian tree of `vs`: a balanced sequence with one pair per position in the order of the
positions, and the pair of `s` is around the pair of a later position `t` iff no value from `s` to `t` is in front of the value at `s`. -/
structure SuperCartesian (minimum : Bool) (vs : List Nat) (b : Nat → Bool) : Prop where
  bal : Balanced b 0 (2 * vs.length)
  cnt : countTrue b (2 * vs.length) = vs.length
  shape : ∀ s t ps pt, s < t → IsSelect b (2 * vs.length) (s + 1) ps → IsSelect b (2 * vs.length) (t + 1) pt →
    (Around b ps pt ↔ ∀ k, s < k → k ≤ t → ¬ InFront minimum vs k s)

theorem cmp_front (mn : Bool) (vs : List Nat) (k s : Nat) : Sct.cmp mn (Sct.val vs k) (Sct.val vs s) = false ↔ ¬ InFront mn vs k s := by
  unfold InFront Sct.cmp Sct.val
  simp only [List.getD_eq_getElem?_getD]
  cases mn <;> simp

/-- The parentheses written by the machine. -/
theorem out_super (mn : Bool) (vs : List Nat) {b : Nat → Bool} (h : ∀ p, b p = Sct.out (Sct.cmp mn) (Sct.val vs) vs.length p) :
    SuperCartesian mn vs b := by
  obtain rfl : b = Sct.out (Sct.cmp mn) (Sct.val vs) vs.length := funext h
  have hb := Sct.out_balanced (lt := Sct.cmp mn) (v := Sct.val vs) (n := vs.length)
  refine ⟨hb, by rw [Sct.S_cnt, Sct.S_end], fun s t ps pt hst h1 h2 => ?_⟩
  have hs : countTrue (Sct.out (Sct.cmp mn) (Sct.val vs) vs.length) ps = s := by have := h1.2.2; omega
  have ht : countTrue (Sct.out (Sct.cmp mn) (Sct.val vs) vs.length) pt = t := by have := h2.2.2; omega
  rw [around_iff hb h2.1 h2.2.1, Sct.uncl_iff (Sct.cmp_tr mn) h1.2.1 h2.2.1 hs ht hst]
  constructor
  · exact fun h k k1 k2 => (cmp_front mn vs k s).1 (h k k1 k2)
  · exact fun h k k1 k2 => (cmp_front mn vs k s).2 (h k k1 k2)

/-! ### The specification determines the sequence -/

theorem U_of_balanced {b : Nat → Bool} {N : Nat} (hb : Balanced b 0 N) : ∀ q, q < N → b q = false → Sct.U b q ≠ [] := by
  intro q
  induction q using Nat.strongRecOn with
  | _ q ih =>
    intro hq h e
    have hu := (Sct.U_ok (b := b) (N := q) (fun q' h1 h2 => ih q' h1 (by omega) h2) q (Nat.le_refl _)).1
    obtain ⟨_, _, h3⟩ := hb.exc
    have h4 := h3 (q + 1) (Nat.zero_le _) hq
    rw [exc_close h, hu, e] at h4
    have : Bp.exc b 0 = 0 := rfl
    simp at h4; omega

theorem count_exc (b : Nat → Bool) : ∀ q, Bp.exc b q = 2 * (countTrue b q : Int) - q
  | 0 => rfl
  | q + 1 => by
    have ih := count_exc b q
    cases h : b q with
    | true => rw [exc_open h, countTrue, h, ih]; simp; omega
    | false => rw [exc_close h, countTrue, h, ih]; simp; omega

theorem select_exists {b : Nat → Bool} {N : Nat} : ∀ {n : Nat}, n < countTrue b N → ∃ p, IsSelect b N (n + 1) p := by
  induction N with
  | zero => intro n h; exact absurd h (Nat.not_lt_zero _)
  | succ N ih =>
    intro n h
    rcases Nat.lt_or_ge n (countTrue b N) with c | c
    · obtain ⟨p, hp⟩ := ih c
      exact ⟨p, hp.mono (Nat.le_succ _)⟩
    · rw [countTrue] at h
      cases hb : b N with
      | false => rw [hb] at h; simp at h; omega
      | true =>
        rw [hb] at h
        simp at h
        exact ⟨N, Nat.lt_succ_self _, hb, by omega⟩

/-- The unclosed parentheses at the opening of `t`, by positions. -/
theorem unclosed_idx {mn : Bool} {vs : List Nat} {b : Nat → Bool} (h : SuperCartesian mn vs b) {t pt : Nat} (ht : IsSelect b (2 * vs.length) (t + 1) pt) :
    ((Sct.U b pt).map (countTrue b)).Nodup ∧ ∀ s, s ∈ (Sct.U b pt).map (countTrue b) ↔ s < t ∧ ∀ k, s < k → k ≤ t → ¬ InFront mn vs k s := by
  have hpt := ht.1
  have hU := (Sct.U_ok (U_of_balanced h.bal) pt (by omega)).2.2
  constructor
  · apply List.Nodup.map_on
    · intro x hx y hy e
      have h1 := (hU x).1 hx
      have h2 := (hU y).1 hy
      rcases Nat.lt_trichotomy x y with c | c | c
      · have := countTrue_lt_of_true (f := b) c h1.1; omega
      · exact c
      · have := countTrue_lt_of_true (f := b) c h2.1; omega
    · have : ∀ q, (Sct.U b q).Pairwise (· > ·) ∧ ∀ x ∈ Sct.U b q, x < q := by
        intro q
        induction q with
        | zero => exact ⟨List.Pairwise.nil, fun x hx => absurd hx List.not_mem_nil⟩
        | succ q ih =>
          rw [Sct.U]
          cases b q with
          | true =>
            rw [if_pos rfl]
            refine ⟨List.Pairwise.cons ih.2 ih.1, fun x hx => ?_⟩
            rcases List.mem_cons.1 hx with rfl | hx
            · omega
            · have := ih.2 x hx; omega
          | false =>
            rw [if_neg (by decide)]
            refine ⟨ih.1.sublist (List.tail_sublist _), fun x hx => ?_⟩
            have := ih.2 x (List.mem_of_mem_tail hx); omega
      exact (this pt).1.imp (fun h => by omega)
  · intro s
    have key : ∀ ps, IsSelect b (2 * vs.length) (s + 1) ps → s < t → (Uncl b ps pt ↔ ∀ k, s < k → k ≤ t → ¬ InFront mn vs k s) := by
      intro ps hps hst
      rw [← around_iff h.bal ht.1 ht.2.1]
      exact h.shape s t ps pt hst hps ht
    constructor
    · intro hs
      obtain ⟨ps, hps, rfl⟩ := List.mem_map.1 hs
      have h1 := (hU ps).1 hps
      have h2 : IsSelect b (2 * vs.length) (countTrue b ps + 1) ps := ⟨by have := h1.2.1; omega, h1.1, rfl⟩
      have h3 : countTrue b ps < t := by
        have := countTrue_lt_of_true (f := b) h1.2.1 h1.1
        have := ht.2.2; omega
      exact ⟨h3, (key ps h2 h3).1 h1⟩
    · rintro ⟨h1, h2⟩
      obtain ⟨ps, hps⟩ := select_exists (b := b) (N := 2 * vs.length) (n := s) (by
        have := countTrue_mono b (show pt ≤ 2 * vs.length by omega)
        have := ht.2.2; omega)
      exact List.mem_map.2 ⟨ps, (hU ps).2 ((key ps hps h1).2 h2), by have := hps.2.2; omega⟩

/-- **C60** The specification determines the parentheses: two sequences that satisfy it are equal on all `2n` positions. -/
theorem C60_unique {mn : Bool} {vs : List Nat} {b b' : Nat → Bool} (h : SuperCartesian mn vs b) (h' : SuperCartesian mn vs b') :
    ∀ p, p < 2 * vs.length → b p = b' p := by
  have pos : ∀ t p p', IsSelect b (2 * vs.length) (t + 1) p → IsSelect b' (2 * vs.length) (t + 1) p' → p = p' := by
    intro t p p' hp hp'
    obtain ⟨n1, m1⟩ := unclosed_idx h hp
    obtain ⟨n2, m2⟩ := unclosed_idx h' hp'
    have hl : (Sct.U b p).length = (Sct.U b' p').length := by
      have := ((List.perm_ext_iff_of_nodup n1 n2).2 (fun s => by rw [m1, m2])).length_eq
      simpa using this
    have e1 := (Sct.U_ok (U_of_balanced h.bal) p (by have := hp.1; omega)).1
    have e2 := (Sct.U_ok (U_of_balanced h'.bal) p' (by have := hp'.1; omega)).1
    rw [count_exc] at e1 e2
    have := hp.2.2; have := hp'.2.2
    omega
  have one : ∀ {b b' : Nat → Bool}, SuperCartesian mn vs b → SuperCartesian mn vs b' → (∀ t p p', IsSelect b (2 * vs.length) (t + 1) p → IsSelect b' (2 * vs.length) (t + 1) p' → p = p') →
      ∀ p, p < 2 * vs.length → b p = true → b' p = true := by
    intro b b' h h' pos p hp hb
    have hs : IsSelect b (2 * vs.length) (countTrue b p + 1) p := ⟨hp, hb, rfl⟩
    obtain ⟨p', hs'⟩ := select_exists (b := b') (N := 2 * vs.length) (n := countTrue b p) (by
      rw [h'.cnt, ← h.cnt]; exact countTrue_lt_of_true hp hb)
    rw [pos _ _ _ hs hs']; exact hs'.2.1
  intro p hp
  cases c : b p with
  | true => exact (one h h' pos p hp c).symm
  | false =>
    cases c' : b' p with
    | false => rfl
    | true => rw [one h' h (fun t p p' h1 h2 => (pos t p' p h2 h1).symm) p hp c'] at c; cases c

/-! ### The four constructions -/

/-- **C60** `construct_supercartesian_tree_bp` writes the super-Cartesian tree, for minima and maxima, all values and lengths; `W` is the number
of words of a bit vector of `2n` bits. -/
theorem C60_plain (vs : List Nat) (minimum : Bool) {W : Nat} (hW : 2 * vs.length ≤ 64 * W) :
    ∃ m, Sct.plain vs minimum W = some m ∧ m.length = W ∧ SuperCartesian minimum vs (bitAt m) ∧ ∀ p, 2 * vs.length ≤ p → bitAt m p = false := by
  obtain ⟨m, h1, h2, h3⟩ := Sct.plain_ok (mn := minimum) (vs := vs) hW
  refine ⟨m, h1, h2, out_super minimum vs h3, fun p hp => ?_⟩
  obtain ⟨d, rfl⟩ := Nat.le.dest hp
  rw [h3]; exact (Sct.S_after d).2

/-- **C60** `construct_supercartesian_tree_bp_succinct` of a container (with the sorted stack and, for minima, the lazy stack). -/
theorem C60_succinct (vs : List Nat) (minimum : Bool) (hn : vs.length + 1 < 2 ^ 63) :
    ∃ m, Sct.succ vs minimum = some m ∧ m.length = (2 * vs.length + 64) / 64 ∧ SuperCartesian minimum vs (bitAt m) ∧ ∀ p, 2 * vs.length ≤ p → bitAt m p = false := by
  obtain ⟨m, h1, h2, h3⟩ := Sct.succ_ok (mn := minimum) (vs := vs) hn
  refine ⟨m, h1, h2, out_super minimum vs h3, fun p hp => ?_⟩
  obtain ⟨d, rfl⟩ := Nat.le.dest hp
  rw [h3]; exact (Sct.S_after d).2

/-- **C60** `construct_supercartesian_tree_bp_succinct` of an `int_vector_buffer`, for minima; the documented precondition (all values smaller
than the size) is sufficient. -/
theorem C60_buffer (vs : List Nat) (hn : vs.length + 1 < 2 ^ 63) (hv : ∀ x ∈ vs, x ≤ vs.length) :
    ∃ m, Sct.succBuf vs true = some m ∧ m.length = (2 * vs.length + 64) / 64 ∧ SuperCartesian true vs (bitAt m) ∧ ∀ p, 2 * vs.length ≤ p → bitAt m p = false := by
  obtain ⟨m, h1, h2, h3⟩ := Sct.succBuf_ok (vs := vs) hn hv
  refine ⟨m, h1, h2, out_super true vs h3, fun p hp => ?_⟩
  obtain ⟨d, rfl⟩ := Nat.le.dest hp
  rw [h3]; exact (Sct.S_after d).2

/-- The bit of the pair that opens at `p`, closes at `q` and belongs to position `t`: it is zero iff an equal value precedes `t` with nothing
smaller in between. -/
def FirstChild (vs : List Nat) (b fc : Nat → Bool) : Prop :=
  ∀ t p q, IsSelect b (2 * vs.length) (t + 1) p → Match b p q → q < 2 * vs.length →
    (fc (q - countTrue b q) = false ↔ ∃ s, s < t ∧ vs.getD s 0 = vs.getD t 0 ∧ ∀ k, s < k → k < t → vs.getD t 0 ≤ vs.getD k 0)

/-- **C60** `construct_supercartesian_tree_bp_succinct_and_first_child`, for minima: the parentheses, one bit per closing parenthesis that
tells if the position is the first one of its value in its interval, and the returned number of ones. -/
theorem C60_first_child (vs : List Nat) (hn : vs.length + 1 < 2 ^ 63) (hv : ∀ x ∈ vs, x ≤ vs.length) (h0 : vs ≠ []) {W W' : Nat}
    (hW : 2 * vs.length ≤ 64 * W) (hW' : vs.length ≤ 64 * W') :
    ∃ m fc, Sct.succFc vs true W W' = some (m, fc, countTrue (bitAt fc) vs.length) ∧ m.length = W ∧ fc.length = W' ∧
      SuperCartesian true vs (bitAt m) ∧ FirstChild vs (bitAt m) (bitAt fc) ∧ (∀ p, 2 * vs.length ≤ p → bitAt m p = false) ∧
      ∀ j, vs.length ≤ j → bitAt fc j = false := by
  obtain ⟨m, fc, h1, h2, h3, h4, h5, h6⟩ := Sct.succFc_ok (vs := vs) hn hv hW' hW h0
  refine ⟨m, fc, h1, h2, h3, out_super true vs h4, ?_, fun p hp => ?_, h6⟩
  · obtain e : bitAt m = Sct.out (Sct.cmp true) (Sct.val vs) vs.length := funext h4
    rw [e]
    intro t p q hp hm hq
    rw [Sct.S_cnt, h5 q hq hm.2.1]
    have tr := Sct.cmp_tr true
    have ok := Sct.S_ok (lt := Sct.cmp true) (v := Sct.val vs) (n := vs.length) tr q
    have adj := Sct.S_adj (lt := Sct.cmp true) (v := Sct.val vs) (n := vs.length) tr (by
      intro a b c; simp only [Sct.cmp, if_true, decide_eq_true_eq]; omega) q
    have hne := Sct.S_ne hq hm.2.1
    cases hst : (Sct.S (Sct.cmp true) (Sct.val vs) vs.length q).2 with
    | nil => exact absurd hst hne
    | cons a st =>
      have hS : Sct.S (Sct.cmp true) (Sct.val vs) vs.length q = ((Sct.S (Sct.cmp true) (Sct.val vs) vs.length q).1, a :: st) := by rw [← hst]
      have hm' := Sct.S_match tr hq hm.2.1 hS
      have hpa : p = a.2 := by
        obtain ⟨h7, h8, h9⟩ := hm.2.2.exc
        obtain ⟨g7, g8, g9⟩ := hm'.2.2.exc
        have h10 := exc_open hm.1
        have g10 := exc_open hm'.1
        rcases Nat.lt_trichotomy p a.2 with c | c | c
        · have := h9 a.2 (by omega) (by omega); omega
        · exact c
        · have := g9 p (by omega) (by omega); omega
      have ea := ok.ent a (by rw [hst]; exact List.mem_cons_self)
      have hta : t = a.1 := by
        have h7 := ea.2.2.2
        rw [← hpa] at h7
        have := hp.2.2; omega
      subst hta
      rw [hst] at adj
      have ev : ∀ k, vs.getD k 0 = Sct.val vs k := fun k => by simp [Sct.val]
      simp only [ev]
      unfold Sct.flag
      rw [decide_eq_false_iff_not, not_ne_iff, List.map_cons, List.tail_cons, List.head?_cons]
      have dsc := ok.desc
      rw [hst] at dsc
      simp only [List.map_cons, List.pairwise_cons] at dsc
      cases st with
      | nil =>
        constructor
        · intro h; cases h
        · rintro ⟨s, hs, e1, _⟩
          have := adj.1 s hs (fun s h => by cases h)
          simp only [Sct.cmp, if_true, decide_eq_true_eq] at this
          omega
      | cons c st =>
        have hca : c.1 < a.1 := dsc.1 c.1 (by simp)
        have kp := ok.keep c (by rw [hst]; simp)
        have hkeep : ∀ k, c.1 < k → k ≤ a.1 → Sct.val vs c.1 ≤ Sct.val vs k := by
          intro k k1 k2
          have := kp k k1 (by have := ea.1; omega)
          simp only [Sct.cmp, if_true, decide_eq_false_iff_not] at this
          omega
        have hadj : ∀ k, c.1 < k → k < a.1 → Sct.val vs a.1 < Sct.val vs k := by
          intro k k1 k2
          have := adj.1 k k2 (fun s hs => by injection hs with hs; rw [← hs]; exact k1)
          simpa only [Sct.cmp, if_true, decide_eq_true_eq] using this
        rw [List.map_cons, List.head?_cons, Option.some_inj]
        constructor
        · intro h
          exact ⟨c.1, hca, h, fun k k1 k2 => by have := hkeep k k1 (by omega); omega⟩
        · rintro ⟨s, hs, e1, e2⟩
          have hc := hkeep a.1 hca (Nat.le_refl _)
          rcases Nat.lt_trichotomy s c.1 with c1 | c1 | c1
          · have := e2 c.1 c1 hca; omega
          · rw [← c1]; exact e1
          · have := hadj s c1 hs; omega
  · obtain ⟨d, rfl⟩ := Nat.le.dest hp
    rw [h4]; exact (Sct.S_after d).2

/-! ### Maxima from a buffer -/

theorem max_shape : Around (bitAt [23#64]) 1 4 := by
  have e : ∀ k, k ≤ 6 → k = 0 ∨ k = 1 ∨ k = 2 ∨ k = 3 ∨ k = 4 ∨ k = 5 ∨ k = 6 := by omega
  refine ⟨by decide, 6, 5, ⟨by decide, by decide, by decide, by decide, fun k k1 k2 => ?_⟩, ⟨by decide, by decide, by decide, by decide, fun k k1 k2 => ?_⟩, by decide⟩
  · rcases e k k2 with rfl | rfl | rfl | rfl | rfl | rfl | rfl <;> revert k1 <;> decide
  · rcases e k (by omega) with rfl | rfl | rfl | rfl | rfl | rfl | rfl <;> revert k1 k2 <;> decide

theorem max_not : ¬ SuperCartesian false [3, 1, 0, 2] (bitAt [23#64]) := by
  intro h
  exact (h.shape 1 3 1 4 (by decide) ⟨by decide, by decide, by decide⟩ ⟨by decide, by decide, by decide⟩).1 max_shape 3 (by decide) (by decide) (by unfold InFront; decide)

/-- **C60** (finding) With `minimum = false` the construction from an `int_vector_buffer` pushes falling values on a stack for ascending ones
and writes a wrong tree although all values are smaller than the size. -/
theorem C60_buffer_max_wrong : ∃ vs m, (∀ x ∈ vs, x < vs.length) ∧ Sct.succBuf vs false = some m ∧ ¬ SuperCartesian false vs (bitAt m) :=
  ⟨[3, 1, 0, 2], [23#64], by decide, by decide +kernel, max_not⟩

/-- **C60** (finding) The same holds for the construction with the first child bits. -/
theorem C60_first_child_max_wrong : ∃ vs m fc c, (∀ x ∈ vs, x < vs.length) ∧ Sct.succFc vs false 1 1 = some (m, fc, c) ∧ ¬ SuperCartesian false vs (bitAt m) :=
  ⟨[3, 1, 0, 2], [23#64], [15#64], 4, by decide, by decide +kernel, max_not⟩

example : Sct.plain [2, 1, 3, 1] true 1 = some [45#64] := by decide +kernel
example : Sct.succFc [2, 1, 3, 1] true 1 1 = some ([45#64], [11#64], 3) := by decide +kernel
example : 2 * [2, 1, 3, 1].length ≤ 64 * 1 ∧ [2, 1, 3, 1].length + 1 < 2 ^ 63 ∧ (∀ x ∈ [2, 1, 3, 1], x ≤ [2, 1, 3, 1].length) := by decide

end Sdsl.Props
