/-
  bp_support_sada: range minimum of the excess.
-/
import Verif.BpSadaFwd
import Verif.BpRmq

namespace Sdsl.Bp

open Spec

/-- The last position of the minimum of `f` on `[l, r]`. -/
def LastMin (f : Nat → Int) (l r p : Nat) : Prop := l ≤ p ∧ p ≤ r ∧ (∀ q, l ≤ q → q ≤ r → f p ≤ f q) ∧ ∀ q, p < q → q ≤ r → f p < f q

/-- `m` is the minimum on `[l, c)`, it is attained in `[a, e)`, and it is not attained between `e` and `c`, or (while blocks are scanned a second time) not between `e` and `x`. -/
structure Reg (f : Nat → Int) (l c x a e : Nat) (m : Int) : Prop where
  la : l ≤ a
  ec : e ≤ c
  att : ∃ q, a ≤ q ∧ q < e ∧ f q = m
  low : ∀ q, l ≤ q → q < c → m ≤ f q
  last : (∀ q, e ≤ q → q < c → m < f q) ∨ ∀ q, e ≤ q → q < x → m < f q

/-- The minimum of a range of positions. -/
structure MinOn (f : Nat → Int) (a e : Nat) (m : Int) : Prop where
  att : ∃ q, a ≤ q ∧ q < e ∧ f q = m
  low : ∀ q, a ≤ q → q < e → m ≤ f q

theorem Reg.take {f : Nat → Int} {l c x a e a' e' : Nat} {m m' : Int} (h : Reg f l c x a e m) (hx : x ≤ c) (h' : MinOn f a' e' m') (hl : l ≤ a') (hax : a' ≤ x) (hm : m' ≤ m) :
    Reg f l (max c e') e' a' e' m' := by
  refine ⟨hl, by omega, h'.att, fun q h1 h2 => ?_, Or.inr (fun q h1 h2 => by omega)⟩
  rcases Nat.lt_or_ge q c with h3 | h3
  · have := h.low q h1 h3; omega
  · exact h'.low q (by omega) (by omega)

theorem Reg.keep {f : Nat → Int} {l c x a e a' e' : Nat} {m m' : Int} (h : Reg f l c x a e m) (hx : x ≤ c) (h' : MinOn f a' e' m') (hax : a' ≤ x) (hm : m < m') : Reg f l (max c e') e' a e m := by
  have hec := h.ec
  refine ⟨h.la, by omega, h.att, fun q h1 h2 => ?_, ?_⟩
  · rcases Nat.lt_or_ge q c with h3 | h3
    · exact h.low q h1 h3
    · have := h'.low q (by omega) (by omega); omega
  · rcases h.last with h3 | h3
    · left
      intro q h1 h2
      rcases Nat.lt_or_ge q c with h4 | h4
      · exact h3 q h1 h4
      · have := h'.low q (by omega) (by omega); omega
    · right
      intro q h1 h2
      rcases Nat.lt_or_ge q x with h4 | h4
      · exact h3 q h1 h4
      · have := h'.low q (by omega) h2; omega

/-- At the end of a scan. -/
theorem Reg.strict {f : Nat → Int} {l c a e : Nat} {m : Int} (h : Reg f l c c a e m) : ∀ q, e ≤ q → q < c → m < f q := by
  rcases h.last with h3 | h3 <;> exact h3

theorem Reg.back {f : Nat → Int} {l c a e : Nat} {m : Int} (h : Reg f l c c a e m) (x : Nat) : Reg f l c x a e m := ⟨h.la, h.ec, h.att, h.low, Or.inl h.strict⟩

/-- The positions a `MinPos` stands for. -/
inductive Desc (s : Sada) (K : Nat) : MinPos → Nat → Nat → Prop where
  | pos (p : Nat) : Desc s K (.pos p) p (p + 1)
  | small (k : Nat) : Desc s K (.small k) (k * s.S) ((k + 1) * s.S)
  | medium (u h : Nat) (hl : Lev K u h) : Desc s K (.medium (u - 1)) (pos K (s.S * s.D) (u * 2 ^ h)) (pos K (s.S * s.D) ((u + 1) * 2 ^ h))

/-- The minimum on `[l, c)` is where `st` says, `Dsc` being the meaning of a `MinPos`. -/
def MSG (s : Sada) (Dsc : MinPos → Nat → Nat → Prop) (l c x : Nat) (st : MinPos × Int) : Prop := ∃ a e, Dsc st.1 a e ∧ Reg (ex1 s.mem) l c x a e st.2

def MS (s : Sada) (K l c x : Nat) (st : MinPos × Int) : Prop := MSG s (Desc s K) l c x st

theorem smlMin {s : Sada} {K : Nat} (ok : SadaOk s K) {k : Nat} (hk : (k + 1) * s.S ≤ s.n) :
    ∃ x : Nat, s.sml.get (2 * k) = some x ∧ MinOn (ex1 s.mem) (k * s.S) ((k + 1) * s.S) (exc (bitAt s.mem) (k * s.S) + (1 - (x : Int))) := by
  have hS := ok.pS
  have hlt : k * s.S < (k + 1) * s.S := by rw [Nat.add_mul]; omega
  obtain ⟨x, y, h1, h2, h3, h4⟩ := (ok.sml k (by omega)).ok
  rw [show min ((k + 1) * s.S) s.n = (k + 1) * s.S by omega] at h3
  rw [show exc (bitAt s.mem) (k * s.S) + 1 - (x : Int) = exc (bitAt s.mem) (k * s.S) + (1 - x) by omega] at h3
  exact ⟨x, h1, h3.attained hlt, h3.2.1⟩

theorem minValue_ok {s : Sada} {K : Nat} (ok : SadaOk s K) {u h : Nat} (hl : Lev K u h) (hn : pos K (s.S * s.D) ((u + 1) * 2 ^ h) ≤ s.n) :
    ∃ m, s.minValue (u - 1) = some m ∧ MinOn (ex1 s.mem) (pos K (s.S * s.D) (u * 2 ^ h)) (pos K (s.S * s.D) ((u + 1) * 2 ^ h)) m := by
  have hM : 0 < s.S * s.D := Nat.mul_pos ok.pS ok.pD
  have hlt : pos K (s.S * s.D) (u * 2 ^ h) < pos K (s.S * s.D) ((u + 1) * 2 ^ h) := by
    obtain ⟨d, h1, h2, h3⟩ := hl
    have h4 : 2 ^ K ≤ u * 2 ^ h := by rw [h1, Nat.pow_add]; exact Nat.mul_le_mul_right _ h2
    have := Nat.two_pow_pos h
    rw [pos, pos, Nat.add_mul, Nat.one_mul]
    exact Nat.mul_lt_mul_of_pos_right (by omega) hM
  have hex := exists_of_pos ok hl (by omega)
  obtain ⟨x, y, h1, h2, h3, h4⟩ := (ok.node u h hl hex).ok
  rw [show min (pos K (s.S * s.D) ((u + 1) * 2 ^ h)) s.n = pos K (s.S * s.D) ((u + 1) * 2 ^ h) by omega] at h3
  refine ⟨_, by rw [Sada.minValue, h1, sbind], ?_, h3.2.1⟩
  rcases h3.2.2 with h5 | h5
  · have h6 := h3.2.1 _ (Nat.le_refl _) hlt
    have := (ex1_abs (mem := s.mem) (n := s.n) (q := pos K (s.S * s.D) (u * 2 ^ h)) (by omega)).2
    exact ⟨_, Nat.le_refl _, hlt, by omega⟩
  · exact h5

theorem medRmqLoop_ok {s : Sada} {K : Nat} (ok : SadaOk s K) {Dsc : MinPos → Nat → Nat → Prop} (hDsc : ∀ k, Dsc (.small k) (k * s.S) ((k + 1) * s.S)) {l c0 : Nat} (P : MinPos) : ∀ (f i : Nat) (st : Option Nat × Int), 1 ≤ i → (i + f) * s.S ≤ s.n → l ≤ i * s.S → i * s.S ≤ c0 →
    MSG s Dsc l c0 (i * s.S) (toSmall st P) →
    ∃ st', s.medRmqLoop f i st = some st' ∧ MSG s Dsc l (max c0 ((i + f) * s.S)) ((i + f) * s.S) (toSmall st' P)
  | 0, i, st, h1, h2, h3, h4, h => ⟨st, rfl, by rw [Nat.add_zero, show max c0 (i * s.S) = c0 by omega]; exact h⟩
  | f + 1, i, st, h1, h2, h3, h4, h => by
    have hle : (i + 1) * s.S ≤ (i + (f + 1)) * s.S := Nat.mul_le_mul_right _ (by omega)
    have hlt : i * s.S ≤ (i + 1) * s.S := Nat.mul_le_mul_right _ (by omega)
    have hS := ok.pS
    have hpos : 0 < i * s.S := Nat.mul_pos h1 hS
    obtain ⟨x, e, hm⟩ := smlMin ok (k := i) (by omega)
    rw [Sada.medRmqLoop, excess_ok (by omega), sbind, e, sbind, show i * s.S - 1 + 1 = i * s.S by omega]
    obtain ⟨a, e', hd, hr⟩ := h
    have hst : (toSmall st P).2 = st.2 := by unfold toSmall; split <;> rfl
    have key : ∀ st1, MSG s Dsc l (max c0 ((i + 1) * s.S)) ((i + 1) * s.S) (toSmall st1 P) →
        ∃ st', s.medRmqLoop f (i + 1) st1 = some st' ∧ MSG s Dsc l (max c0 ((i + (f + 1)) * s.S)) ((i + (f + 1)) * s.S) (toSmall st' P) := by
      intro st1 hs
      obtain ⟨st', g1, g2⟩ := medRmqLoop_ok ok hDsc P f (i + 1) st1 (by omega) (by rw [show i + 1 + f = i + (f + 1) by omega]; exact h2) (by omega) (by omega) hs
      refine ⟨st', g1, ?_⟩
      rw [show i + 1 + f = i + (f + 1) by omega] at g2
      rw [show max c0 ((i + (f + 1)) * s.S) = max (max c0 ((i + 1) * s.S)) ((i + (f + 1)) * s.S) by omega]
      exact g2
    rw [hst] at hr
    split
    · rename_i hif
      exact key _ ⟨_, _, hDsc i, hr.take h4 hm h3 (Nat.le_refl _) hif⟩
    · rename_i hif
      exact key _ ⟨a, e', hd, by rw [hst]; exact hr.keep h4 hm (Nat.le_refl _) (by omega)⟩

theorem medRmq_ok {s : Sada} {K : Nat} (ok : SadaOk s K) {Dsc : MinPos → Nat → Nat → Prop} (hDsc : ∀ k, Dsc (.small k) (k * s.S) ((k + 1) * s.S)) {l c0 i r1 : Nat} {m : Int} (P : MinPos) (h1 : 1 ≤ i) (hir : i ≤ r1) (h2 : r1 * s.S ≤ s.n) (h3 : l ≤ i * s.S) (h4 : i * s.S ≤ c0)
    (h : MSG s Dsc l c0 (i * s.S) (P, m)) :
    ∃ st', s.medRmq i r1 m = some st' ∧ MSG s Dsc l (max c0 (r1 * s.S)) (r1 * s.S) (toSmall st' P) := by
  rw [Sada.medRmq, if_neg (by omega)]
  obtain ⟨st', g1, g2⟩ := medRmqLoop_ok ok hDsc P (r1 - i) i (none, m) h1 (by rw [show i + (r1 - i) = r1 by omega]; exact h2) h3 h4 h
  rw [show i + (r1 - i) = r1 by omega] at g2
  exact ⟨st', g1, g2⟩

/-- Looking for the last block with a known minimum. -/
theorem medRmqLoop_find {s : Sada} {K : Nat} (ok : SadaOk s K) {a : Nat} {m : Int} : ∀ (f i : Nat) (o : Option Nat), 1 ≤ i → (i + f) * s.S ≤ s.n → (∀ q, i * s.S ≤ q → q < (i + f) * s.S → m ≤ ex1 s.mem q) →
    (match o with
      | none => ∀ q, a ≤ q → q < i * s.S → m < ex1 s.mem q
      | some k => a ≤ k * s.S ∧ (k + 1) * s.S ≤ i * s.S ∧ MinOn (ex1 s.mem) (k * s.S) ((k + 1) * s.S) m ∧ ∀ q, (k + 1) * s.S ≤ q → q < i * s.S → m < ex1 s.mem q) → a ≤ i * s.S →
    ∃ o', s.medRmqLoop f i (o, m) = some (o', m) ∧ match o' with
      | none => ∀ q, a ≤ q → q < (i + f) * s.S → m < ex1 s.mem q
      | some k => a ≤ k * s.S ∧ (k + 1) * s.S ≤ (i + f) * s.S ∧ MinOn (ex1 s.mem) (k * s.S) ((k + 1) * s.S) m ∧ ∀ q, (k + 1) * s.S ≤ q → q < (i + f) * s.S → m < ex1 s.mem q
  | 0, i, o, h1, h2, h3, h4, _ => ⟨o, rfl, h4⟩
  | f + 1, i, o, h1, h2, h3, h4, h5 => by
    have hle : (i + 1) * s.S ≤ (i + (f + 1)) * s.S := Nat.mul_le_mul_right _ (by omega)
    have hlt : i * s.S ≤ (i + 1) * s.S := Nat.mul_le_mul_right _ (by omega)
    have hS := ok.pS
    have hpos : 0 < i * s.S := Nat.mul_pos h1 hS
    obtain ⟨x, e, hm⟩ := smlMin ok (k := i) (by omega)
    rw [Sada.medRmqLoop, excess_ok (by omega), sbind, e, sbind, show i * s.S - 1 + 1 = i * s.S by omega]
    generalize exc (bitAt s.mem) (i * s.S) + (1 - (x : Int)) = mx at *
    rw [show i + (f + 1) = i + 1 + f by omega] at *
    dsimp only
    split
    · rename_i hif
      obtain ⟨q, g1, g2, g3⟩ := hm.att
      have := h3 q g1 (by omega)
      obtain rfl : mx = m := by omega
      exact medRmqLoop_find ok f (i + 1) (some i) (by omega) h2 (fun q h6 h7 => h3 q (by omega) h7) ⟨h5, Nat.le_refl _, hm, fun q h6 h7 => by omega⟩ (by omega)
    · rename_i hif
      refine medRmqLoop_find ok f (i + 1) o (by omega) h2 (fun q h6 h7 => h3 q (by omega) h7) ?_ (by omega)
      cases o with
      | none =>
        intro q h6 h7
        rcases Nat.lt_or_ge q (i * s.S) with h8 | h8
        · exact h4 q h6 h8
        · have := hm.low q h8 h7; omega
      | some k =>
        obtain ⟨k1, k2, k3, k4⟩ := h4
        refine ⟨k1, by omega, k3, fun q h6 h7 => ?_⟩
        rcases Nat.lt_or_ge q (i * s.S) with h8 | h8
        · exact k4 q h6 h8
        · have := hm.low q h8 h7; omega

theorem visit_ok {s : Sada} {K : Nat} (ok : SadaOk s K) {l c u h : Nat} {st : MinPos × Int} (hl : Lev K u h) (hn : pos K (s.S * s.D) ((u + 1) * 2 ^ h) ≤ s.n)
    (h1 : l ≤ pos K (s.S * s.D) (u * 2 ^ h)) (h2 : pos K (s.S * s.D) (u * 2 ^ h) ≤ c) (h3 : c ≤ pos K (s.S * s.D) ((u + 1) * 2 ^ h)) (hs : MS s K l c c st) :
    ∃ st', s.visit (u - 1) st = some st' ∧ MS s K l (pos K (s.S * s.D) ((u + 1) * 2 ^ h)) (pos K (s.S * s.D) ((u + 1) * 2 ^ h)) st' := by
  obtain ⟨m, e, hm⟩ := minValue_ok ok hl hn
  obtain ⟨a, e', hd, hr⟩ := hs
  rw [Sada.visit, e, sbind]
  split
  · rename_i hif
    refine ⟨_, rfl, _, _, Desc.medium u h hl, ?_⟩
    have := hr.take (Nat.le_refl _) hm h1 h2 hif
    rw [show max c (pos K (s.S * s.D) ((u + 1) * 2 ^ h)) = pos K (s.S * s.D) ((u + 1) * 2 ^ h) by omega] at this
    exact this
  · rename_i hif
    refine ⟨_, rfl, _, _, hd, ?_⟩
    have := hr.keep (Nat.le_refl _) hm h2 (by omega)
    rw [show max c (pos K (s.S * s.D) ((u + 1) * 2 ^ h)) = pos K (s.S * s.D) ((u + 1) * 2 ^ h) by omega] at this
    exact this

/-- The right neighbour on the same level. -/
theorem Lev.next {K u h : Nat} (hl : Lev K u h) (hr : (u + 1) * 2 ^ h < 2 ^ (K + 1)) : Lev K (u + 1) h := by
  obtain ⟨d, h1, h2, h3⟩ := hl
  refine ⟨d, h1, by omega, ?_⟩
  rw [h1, show d + h + 1 = (d + 1) + h by omega, Nat.pow_add] at hr
  exact Nat.lt_of_mul_lt_mul_right hr

theorem Lev.ge {K u h : Nat} (hl : Lev K u h) : 2 ^ K ≤ u * 2 ^ h := by
  obtain ⟨d, h1, h2, h3⟩ := hl
  rw [h1, Nat.pow_add]; exact Nat.mul_le_mul_right _ h2

/-- How far the positions are covered when a node is reached: up to its beginning, or its left child is done. -/
def CC (K M u h c : Nat) : Prop := c = pos K M (u * 2 ^ h) ∨ ∃ h', h = h' + 1 ∧ c = pos K M ((2 * u + 1) * 2 ^ h')

theorem CC.bounds {K M u h c : Nat} (hc : CC K M u h c) : pos K M (u * 2 ^ h) ≤ c ∧ c ≤ pos K M ((u + 1) * 2 ^ h) := by
  rcases hc with rfl | ⟨h', rfl, rfl⟩
  · exact ⟨Nat.le_refl _, pos_mono (Nat.mul_le_mul_right _ (by omega))⟩
  · rw [two_mul_pow, two_mul_pow]
    exact ⟨pos_mono (Nat.mul_le_mul_right _ (by omega)), pos_mono (Nat.mul_le_mul_right _ (by omega))⟩

theorem rmqUp_ok {s : Sada} {K : Nat} (ok : SadaOk s K) {l last : Nat} (hL : (last + 1) * (s.S * s.D) ≤ s.n) (hLK : last + 1 ≤ 2 ^ K) : ∀ (f u h c : Nat) (st : MinPos × Int), Lev K u h →
    0 < f → last < (u + 1) * 2 ^ h - 2 ^ K - 1 + f → u * 2 ^ h < last + 1 + 2 ^ K → l ≤ pos K (s.S * s.D) (u * 2 ^ h) → CC K (s.S * s.D) u h c →
    c ≤ (last + 1) * (s.S * s.D) → MS s K l c c st →
    ∃ u' h' c' st', s.rmqUp last f (u - 1) ((u + 1) * 2 ^ h - 2 ^ K - 1) h st = some (u' - 1, (u' + 1) * 2 ^ h' - 2 ^ K - 1, h', st') ∧ Lev K u' h' ∧ u' * 2 ^ h' < last + 1 + 2 ^ K ∧
      last + 1 + 2 ^ K ≤ (u' + 1) * 2 ^ h' ∧ l ≤ pos K (s.S * s.D) (u' * 2 ^ h') ∧ CC K (s.S * s.D) u' h' c' ∧
      c' ≤ (last + 1) * (s.S * s.D) ∧ MS s K l c' c' st'
  | 0, u, h, c, st, hl, hf0, hf, hs, h1, hcc, h4, hms => by omega
  | f + 1, u, h, c, st, hl, hf0, hf, hs, h1, hcc, h4, hms => by
    obtain ⟨h2, h3⟩ := hcc.bounds
    have hge := hl.ge
    have h2h := Nat.two_pow_pos h
    have hR : (u + 1) * 2 ^ h = u * 2 ^ h + 2 ^ h := by rw [Nat.add_mul, Nat.one_mul]
    have hu0 := hl.pos
    rw [Sada.rmqUp]
    split
    · rename_i hlt
      have hRL : (u + 1) * 2 ^ h < last + 1 + 2 ^ K := by omega
      have hRn : pos K (s.S * s.D) ((u + 1) * 2 ^ h) ≤ (last + 1) * (s.S * s.D) := Nat.mul_le_mul_right _ (by omega)
      obtain ⟨st', e, hms'⟩ := visit_ok ok hl (by omega) h1 h2 h3 hms
      rw [e, sbind]
      have hu1 : u ≠ 1 := by
        rintro rfl
        obtain rfl := hl.root
        omega
      have hlp := hl.parent (by omega)
      rcases Nat.mod_two_eq_zero_or_one u with hu | hu
      · rw [if_neg (show ¬ (u - 1) % 2 = 0 by omega)]
        have e1 : u / 2 * 2 ^ (h + 1) = u * 2 ^ h := by rw [two_mul_pow, show 2 * (u / 2) = u by omega]
        have e2 : (u / 2 + 1) * 2 ^ (h + 1) = (u + 1) * 2 ^ h + 2 ^ h := by rw [two_mul_pow, show 2 * (u / 2 + 1) = u + 1 + 1 by omega, Nat.add_mul (u + 1), Nat.one_mul]
        rw [show (u - 1 - 1) / 2 = u / 2 - 1 by omega, show (u + 1) * 2 ^ h - 2 ^ K - 1 + 2 ^ h = (u / 2 + 1) * 2 ^ (h + 1) - 2 ^ K - 1 by omega]
        exact rmqUp_ok ok hL hLK f (u / 2) (h + 1) _ st' hlp (by omega) (by omega) (by omega) (by rw [e1]; exact h1) (Or.inr ⟨h, rfl, by rw [show 2 * (u / 2) = u by omega]⟩) hRn hms'
      · rw [if_pos (show (u - 1) % 2 = 0 by omega)]
        have hnx := hl.next (by rw [Nat.pow_succ]; omega)
        have hlp' := hnx.parent (by omega)
        have e1 : (u + 1) / 2 * 2 ^ (h + 1) = (u + 1) * 2 ^ h := by rw [two_mul_pow, show 2 * ((u + 1) / 2) = u + 1 by omega]
        have e2 : ((u + 1) / 2 + 1) * 2 ^ (h + 1) = (u + 1) * 2 ^ h + 2 ^ (h + 1) := by rw [Nat.add_mul, e1, Nat.one_mul]
        have e3 : 2 ^ (h + 1) = 2 * 2 ^ h := by rw [Nat.pow_succ, Nat.mul_comm]
        rw [show (u - 1 - 1) / 2 + 1 = (u + 1) / 2 - 1 by omega, show (u + 1) * 2 ^ h - 2 ^ K - 1 + 2 ^ (h + 1) = ((u + 1) / 2 + 1) * 2 ^ (h + 1) - 2 ^ K - 1 by omega]
        exact rmqUp_ok ok hL hLK f ((u + 1) / 2) (h + 1) _ st' hlp' (by omega) (by omega) (by omega) (by rw [e1]; omega) (Or.inl (by rw [e1])) hRn hms'
    · rename_i hge'
      exact ⟨u, h, c, st, rfl, hl, hs, by omega, h1, hcc, h4, hms⟩

/-- State of the descent: the node has been visited and ends at or before the goal, or it contains the goal. -/
def DS (s : Sada) (K l last u h c : Nat) : Prop :=
  ((u + 1) * 2 ^ h ≤ last + 1 + 2 ^ K ∧ last + 1 + 2 ^ K < (u + 2) * 2 ^ h ∧ c = pos K (s.S * s.D) ((u + 1) * 2 ^ h) ∧ l ≤ c) ∨
    (u * 2 ^ h < last + 1 + 2 ^ K ∧ last + 1 + 2 ^ K < (u + 1) * 2 ^ h ∧ l ≤ pos K (s.S * s.D) (u * 2 ^ h) ∧ CC K (s.S * s.D) u h c ∧ c ≤ (last + 1) * (s.S * s.D))

theorem rmqDown_ok {s : Sada} {K : Nat} (ok : SadaOk s K) {l last : Nat} (hL : (last + 1) * (s.S * s.D) ≤ s.n) (hLK : last + 1 ≤ 2 ^ K) : ∀ (h u c : Nat) (st : MinPos × Int), Lev K u h →
    MS s K l c c st → DS s K l last u h c →
    ∃ st', s.rmqDown last h (u - 1) ((u + 1) * 2 ^ h - 2 ^ K - 1) st = some st' ∧ MS s K l ((last + 1) * (s.S * s.D)) ((last + 1) * (s.S * s.D)) st' := by
  have hM : 0 < s.S * s.D := Nat.mul_pos ok.pS ok.pD
  have hK2 : 2 ^ (K + 1) = 2 * 2 ^ K := by rw [Nat.pow_succ, Nat.mul_comm]
  have hpL : pos K (s.S * s.D) (last + 1 + 2 ^ K) = (last + 1) * (s.S * s.D) := by rw [pos, show last + 1 + 2 ^ K - 2 ^ K = last + 1 by omega]
  intro h
  induction h with
  | zero =>
    intro u c st hl hms hds
    have hge := hl.ge
    unfold DS at hds
    rw [Nat.pow_zero] at *
    rw [Nat.mul_one] at *
    rcases hds with ⟨h1, h2, h3, h4⟩ | ⟨h1, h2, _⟩
    · rw [Sada.rmqDown, if_pos (by omega)]
      have : u + 1 = last + 1 + 2 ^ K := by omega
      rw [this, hpL] at h3
      rw [← h3]
      exact ⟨st, rfl, hms⟩
    · omega
  | succ h ih =>
    intro u c st hl hms hds
    have hge := hl.ge
    have h2h := Nat.two_pow_pos h
    have hu0 := hl.pos
    have hp := two_mul_pow u h
    have hp1 := two_mul_pow (u + 1) h
    have hp2 := two_mul_pow (u + 2) h
    have d1 : (2 * u + 1) * 2 ^ h = 2 * u * 2 ^ h + 2 ^ h := by rw [Nat.add_mul, Nat.one_mul]
    have d2 : 2 * (u + 1) * 2 ^ h = 2 * u * 2 ^ h + 2 * 2 ^ h := by rw [show 2 * (u + 1) = 2 * u + 2 by omega, Nat.add_mul]
    have d3 : (2 * (u + 1) + 1) * 2 ^ h = 2 * u * 2 ^ h + 3 * 2 ^ h := by rw [show 2 * (u + 1) + 1 = 2 * u + 3 by omega, Nat.add_mul]
    have d4 : 2 * (u + 2) * 2 ^ h = 2 * u * 2 ^ h + 4 * 2 ^ h := by rw [show 2 * (u + 2) = 2 * u + 4 by omega, Nat.add_mul]
    rw [Sada.rmqDown]
    split
    · rename_i heq
      rcases hds with ⟨h1, h2, h3, h4⟩ | ⟨h1, h2, _⟩
      · rw [show (u + 1) * 2 ^ (h + 1) = last + 1 + 2 ^ K by omega, hpL] at h3
        rw [← h3]
        exact ⟨st, rfl, hms⟩
      · omega
    · rename_i hne
      dsimp only
      -- the next node
      have next : ∀ (w c : Nat), Lev K w h → MS s K l c c st → w * 2 ^ h < last + 1 + 2 ^ K → last + 1 + 2 ^ K < (w + 2) * 2 ^ h → l ≤ pos K (s.S * s.D) (w * 2 ^ h) → pos K (s.S * s.D) (w * 2 ^ h) ≤ c →
          (c = pos K (s.S * s.D) (w * 2 ^ h) ∨ c = pos K (s.S * s.D) ((w + 1) * 2 ^ h)) → c ≤ (last + 1) * (s.S * s.D) →
          ∃ st', (do
            let st ← if (w + 1) * 2 ^ h - 2 ^ K - 1 ≤ last then s.visit (w - 1) st else some st
            s.rmqDown last h (w - 1) ((w + 1) * 2 ^ h - 2 ^ K - 1) st) = some st' ∧ MS s K l ((last + 1) * (s.S * s.D)) ((last + 1) * (s.S * s.D)) st' := by
        intro w c hlw hms h1 h2 h3 h4 h5 h6
        have hgw := hlw.ge
        have dw : (w + 1) * 2 ^ h = w * 2 ^ h + 2 ^ h := by rw [Nat.add_mul, Nat.one_mul]
        split
        · rename_i hv
          have hRL : (w + 1) * 2 ^ h ≤ last + 1 + 2 ^ K := by omega
          have hm : pos K (s.S * s.D) ((w + 1) * 2 ^ h) ≤ (last + 1) * (s.S * s.D) := by rw [← hpL]; exact pos_mono hRL
          have hm2 : pos K (s.S * s.D) (w * 2 ^ h) ≤ pos K (s.S * s.D) ((w + 1) * 2 ^ h) := pos_mono (by omega)
          obtain ⟨st', e, hms'⟩ := visit_ok ok hlw (by omega) h3 h4 (by omega) hms
          rw [e, sbind]
          exact ih w _ st' hlw hms' (Or.inl ⟨hRL, h2, rfl, by omega⟩)
        · rename_i hv
          rw [sbind]
          refine ih w c st hlw hms (Or.inr ⟨h1, by omega, h3, Or.inl ?_, h6⟩)
          rcases h5 with h5 | h5
          · exact h5
          · exfalso
            have : (last + 1) * (s.S * s.D) < pos K (s.S * s.D) ((w + 1) * 2 ^ h) := by
              rw [pos]; exact Nat.mul_lt_mul_of_pos_right (by omega) hM
            omega
      rcases hds with ⟨h1, h2, h3, h4⟩ | ⟨h1, h2, h3, h4, h5⟩
      · have hnot : ¬ (u + 1) * 2 ^ (h + 1) - 2 ^ K - 1 > last := by omega
        rw [if_neg hnot, if_neg hnot]
        have hlt : (u + 1) * 2 ^ (h + 1) < last + 1 + 2 ^ K := by omega
        have hnx := hl.next (by omega)
        have := next (2 * (u + 1)) c hnx.child.1 hms (by omega) (by rw [show 2 * (u + 1) + 2 = 2 * (u + 2) by omega]; omega) (by rw [← hp1]; omega) (by rw [← hp1]; omega) (Or.inl (by rw [← hp1]; exact h3))
          (by rw [h3, ← hpL]; exact pos_mono (by omega))
        rw [show 2 * (u - 1) + 3 = 2 * (u + 1) - 1 by omega, show (u + 1) * 2 ^ (h + 1) - 2 ^ K - 1 + 2 ^ h = (2 * (u + 1) + 1) * 2 ^ h - 2 ^ K - 1 by omega]
        exact this
      · have hyes : (u + 1) * 2 ^ (h + 1) - 2 ^ K - 1 > last := by omega
        rw [if_pos hyes, if_pos hyes]
        have hb := h4.bounds
        have := next (2 * u) c hl.child.1 hms (by omega) (by rw [show 2 * u + 2 = 2 * (u + 1) by omega]; omega) (by rw [← hp]; omega) (by rw [← hp]; omega) (by
          rcases h4 with h4 | ⟨h', h6, h7⟩
          · left; rw [h4, hp]
          · obtain rfl : h = h' := by omega
            right; exact h7) h5
        rw [show 2 * (u - 1) + 1 = 2 * u - 1 by omega, show (u + 1) * 2 ^ (h + 1) - 2 ^ K - 1 - 2 ^ h = (2 * u + 1) * 2 ^ h - 2 ^ K - 1 by omega]
        exact this

/-- The positions a `MinPos` stands for after the tree has been searched. -/
inductive DescL (s : Sada) : MinPos → Nat → Nat → Prop where
  | pos (p : Nat) : DescL s (.pos p) p (p + 1)
  | small (k : Nat) : DescL s (.small k) (k * s.S) ((k + 1) * s.S)
  | medium (m : Nat) : DescL s (.medium (s.inner + m)) (m * (s.S * s.D)) ((m + 1) * (s.S * s.D))

def MSL (s : Sada) (l c x : Nat) (st : MinPos × Int) : Prop := MSG s (DescL s) l c x st

theorem minLeaf_ok {s : Sada} {K : Nat} (ok : SadaOk s K) {l c : Nat} {m : Int} (hc : c ≤ s.n) : ∀ (f h u : Nat), Lev K u h → h < f →
    Reg (ex1 s.mem) l c c (pos K (s.S * s.D) (u * 2 ^ h)) (pos K (s.S * s.D) ((u + 1) * 2 ^ h)) m →
    ∃ k, s.minLeaf m f (u - 1) = some (s.inner + k) ∧ Reg (ex1 s.mem) l c c (k * (s.S * s.D)) ((k + 1) * (s.S * s.D)) m
  | 0, h, u, hl, hf, _ => by omega
  | f + 1, 0, u, hl, hf, hr => by
    have h1 := (Lev.zero_iff.1 hl).1
    have := Nat.two_pow_pos K
    rw [Sada.minLeaf, if_neg (by rw [ok.inner]; omega)]
    rw [Nat.pow_zero, Nat.mul_one, Nat.mul_one, pos, pos, show u + 1 - 2 ^ K = u - 2 ^ K + 1 by omega] at hr
    exact ⟨u - 2 ^ K, by rw [ok.inner]; congr 1; omega, hr⟩
  | f + 1, h + 1, u, hl, hf, hr => by
    have hM : 0 < s.S * s.D := Nat.mul_pos ok.pS ok.pD
    have hu0 := hl.pos
    have h1 := hl.inner.1
    have h2h := Nat.two_pow_pos h
    obtain ⟨c1, c2⟩ := hl.child
    rw [two_mul_pow, two_mul_pow, show 2 * (u + 1) = 2 * u + 1 + 1 by omega] at hr
    have hec := hr.ec
    have hlt : pos K (s.S * s.D) ((2 * u + 1) * 2 ^ h) < pos K (s.S * s.D) ((2 * u + 1 + 1) * 2 ^ h) := by
      have := c2.ge
      rw [pos, pos, Nat.add_mul (2 * u + 1), Nat.one_mul]
      exact Nat.mul_lt_mul_of_pos_right (by omega) hM
    have hle : pos K (s.S * s.D) (2 * u * 2 ^ h) ≤ pos K (s.S * s.D) ((2 * u + 1) * 2 ^ h) := pos_mono (Nat.mul_le_mul_right _ (by omega))
    have hex := exists_of_pos ok c2 (by omega)
    rw [Sada.minLeaf, if_pos (by rw [ok.inner]; omega), if_pos (by rw [ok.inner]; omega)]
    obtain ⟨mr, e, hmr⟩ := minValue_ok ok c2 (by omega)
    have hla := hr.la
    rw [show 2 * (u - 1) + 2 = 2 * u + 1 - 1 by omega, e, sbind]
    split
    · rename_i hgt
      rw [show 2 * (u - 1) + 1 = 2 * u - 1 by omega]
      refine minLeaf_ok ok hc f h (2 * u) c1 (by omega) ⟨hr.la, by omega, ?_, hr.low, Or.inl (fun q h3 h4 => ?_)⟩
      · obtain ⟨q, h3, h4, h5⟩ := hr.att
        rcases Nat.lt_or_ge q (pos K (s.S * s.D) ((2 * u + 1) * 2 ^ h)) with h6 | h6
        · exact ⟨q, h3, h6, h5⟩
        · have := hmr.low q h6 h4; omega
      · rcases Nat.lt_or_ge q (pos K (s.S * s.D) ((2 * u + 1 + 1) * 2 ^ h)) with h6 | h6
        · have := hmr.low q h3 h6; omega
        · exact hr.strict q h6 h4
    · rename_i hgt
      refine minLeaf_ok ok hc f h (2 * u + 1) c2 (by omega) ⟨by omega, hec, ?_, hr.low, hr.last⟩
      obtain ⟨q, h3, h4, h5⟩ := hmr.att
      have := hr.low q (by omega) (by omega)
      exact ⟨q, h3, h4, by omega⟩

theorem rmqTree_ok {s : Sada} {K : Nat} (ok : SadaOk s K) {l mbl mbr : Nat} {st : MinPos × Int} (hlr : mbl < mbr) (hr : mbr * (s.S * s.D) < s.n) (hl : l ≤ (mbl + 1) * (s.S * s.D))
    (hst : ∀ v, st.1 ≠ .medium v) (hms : MSL s l ((mbl + 1) * (s.S * s.D)) ((mbl + 1) * (s.S * s.D)) st) :
    ∃ st', s.rmqTree mbl mbr st = some st' ∧ MSL s l (mbr * (s.S * s.D)) (mbr * (s.S * s.D)) st' := by
  have hM : 0 < s.S * s.D := Nat.mul_pos ok.pS ok.pD
  have hmbr : mbr < s.medBlocks := by rw [ok.mb]; exact lt_ceil hM hr
  have hmb := ok.hmb
  have hK := Nat.two_pow_pos K
  rw [Sada.rmqTree]
  split
  · rename_i hgt
    have hL : (mbr - 1 + 1) * (s.S * s.D) ≤ s.n := by rw [show mbr - 1 + 1 = mbr by omega]; omega
    have hl0 : Lev K (2 ^ K + mbl + 1) 0 := Lev.zero_iff.2 ⟨by omega, by rw [Nat.pow_succ]; omega⟩
    have hp0 : pos K (s.S * s.D) ((2 ^ K + mbl + 1) * 2 ^ 0) = (mbl + 1) * (s.S * s.D) := by rw [pos, Nat.pow_zero, Nat.mul_one, show 2 ^ K + mbl + 1 - 2 ^ K = mbl + 1 by omega]
    have hms0 : MS s K l ((mbl + 1) * (s.S * s.D)) ((mbl + 1) * (s.S * s.D)) st := by
      obtain ⟨a, e, hd, hreg⟩ := hms
      refine ⟨a, e, ?_, hreg⟩
      generalize hP : st.1 = P at hd
      cases hd with
      | pos => exact Desc.pos _
      | small k => exact Desc.small k
      | medium m => exact absurd hP (hst _)
    obtain ⟨u, h, c, st1, e, hlu, g1, g2, g3, g4, g5, g6⟩ := rmqUp_ok ok (l := l) (last := mbr - 1) hL (by omega) (mbr + 1) (2 ^ K + mbl + 1) 0 ((mbl + 1) * (s.S * s.D)) st hl0 (by omega)
      (by rw [Nat.pow_zero, Nat.mul_one]; omega) (by rw [Nat.pow_zero, Nat.mul_one]; omega) (by rw [hp0]; exact hl) (Or.inl hp0.symm) (Nat.mul_le_mul_right _ (by omega)) hms0
    rw [show 2 ^ K + mbl + 1 - 1 = mbl + 1 + s.inner by rw [ok.inner]; omega, show (2 ^ K + mbl + 1 + 1) * 2 ^ 0 - 2 ^ K - 1 = mbl + 1 by rw [Nat.pow_zero, Nat.mul_one]; omega] at e
    rw [e, sbind]
    dsimp only
    have h2h := Nat.two_pow_pos h
    have hR : (u + 1) * 2 ^ h = u * 2 ^ h + 2 ^ h := by rw [Nat.add_mul, Nat.one_mul]
    have hR2 : (u + 2) * 2 ^ h = u * 2 ^ h + 2 * 2 ^ h := by rw [Nat.add_mul]
    have hge := hlu.ge
    have hpL : pos K (s.S * s.D) (mbr + 2 ^ K) = mbr * (s.S * s.D) := by rw [pos, show mbr + 2 ^ K - 2 ^ K = mbr by omega]
    have key : ∃ st2, (do
        let st ← if (u + 1) * 2 ^ h - 2 ^ K - 1 ≤ mbr - 1 then s.visit (u - 1) st1 else some st1
        s.rmqDown (mbr - 1) h (u - 1) ((u + 1) * 2 ^ h - 2 ^ K - 1) st) = some st2 ∧ MS s K l (mbr * (s.S * s.D)) (mbr * (s.S * s.D)) st2 := by
      rw [show mbr * (s.S * s.D) = (mbr - 1 + 1) * (s.S * s.D) by rw [show mbr - 1 + 1 = mbr by omega]]
      split
      · have hRe : (u + 1) * 2 ^ h = mbr + 2 ^ K := by omega
        obtain ⟨b1, b2⟩ := g4.bounds
        obtain ⟨st2, e2, hms2⟩ := visit_ok ok hlu (by rw [hRe, hpL]; omega) g3 b1 b2 g6
        rw [e2, sbind]
        exact rmqDown_ok ok hL (by omega) h u _ st2 hlu hms2 (Or.inl ⟨by omega, by omega, rfl, by omega⟩)
      · rw [sbind]
        exact rmqDown_ok ok hL (by omega) h u _ st1 hlu g6 (Or.inr ⟨g1, by omega, g3, g4, g5⟩)
    obtain ⟨st2, e2, a, e3, hd, hreg⟩ := key
    have fin : ∃ st', (match st2.1 with
        | .medium v => do
          let v ← s.minLeaf st2.2 (s.inner + 1) v
          some (MinPos.medium v, st2.2)
        | _ => some st2) = some st' ∧ MSL s l (mbr * (s.S * s.D)) (mbr * (s.S * s.D)) st' := by
      obtain ⟨P, m⟩ := st2
      dsimp only at hd hreg ⊢
      cases hd with
      | pos => exact ⟨_, rfl, _, _, DescL.pos _, hreg⟩
      | small k => exact ⟨_, rfl, _, _, DescL.small k, hreg⟩
      | medium u h hlu =>
        obtain ⟨k, e4, hreg'⟩ := minLeaf_ok ok (by omega) (s.inner + 1) h u hlu (by rw [ok.inner]; have := hlu.h_le; have := Nat.lt_two_pow_self (n := K); omega) hreg
        dsimp only
        rw [e4, sbind]
        exact ⟨_, rfl, _, _, DescL.medium k, hreg'⟩
    obtain ⟨st', e4, hf⟩ := fin
    refine ⟨st', ?_, hf⟩
    rw [← e4]
    split at e2
    · rename_i hif
      rw [if_pos hif]
      cases hv : s.visit (u - 1) st1 with
      | none => rw [hv] at e2; cases e2
      | some z =>
        rw [hv, sbind] at e2
        dsimp only at e2
        rw [sbind, e2, sbind]
        cases st2.1 <;> rfl
    · rename_i hif
      rw [if_neg hif]
      rw [sbind] at e2 ⊢
      dsimp only at e2
      rw [e2, sbind]
      cases st2.1 <;> rfl
  · obtain rfl : mbr = mbl + 1 := by omega
    exact ⟨st, rfl, hms⟩

theorem toSmall_notMed {o : Option Nat × Int} {p : Nat} : ∀ v, (toSmall o (.pos p)).1 ≠ .medium v := by
  intro v
  unfold toSmall
  split <;> simp

theorem toSmall_snd (o : Option Nat × Int) (P : MinPos) : (toSmall o P).2 = o.2 := by unfold toSmall; split <;> rfl

/-- The last block of a leaf with the minimum of the leaf. -/
theorem medRmq_find {s : Sada} {K : Nat} (ok : SadaOk s K) {i r1 : Nat} {m : Int} (hir : i < r1) (h2 : r1 * s.S ≤ s.n) (h : MinOn (ex1 s.mem) (i * s.S) (r1 * s.S) m) :
    ∃ k, s.medRmq i r1 m = some (some k, m) ∧ i * s.S ≤ k * s.S ∧ (k + 1) * s.S ≤ r1 * s.S ∧ MinOn (ex1 s.mem) (k * s.S) ((k + 1) * s.S) m ∧
      ∀ q, (k + 1) * s.S ≤ q → q < r1 * s.S → m < ex1 s.mem q := by
  have fin : ∀ {o' : Option Nat}, s.medRmq i r1 m = some (o', m) → (match o' with
      | none => ∀ q, i * s.S ≤ q → q < r1 * s.S → m < ex1 s.mem q
      | some k => i * s.S ≤ k * s.S ∧ (k + 1) * s.S ≤ r1 * s.S ∧ MinOn (ex1 s.mem) (k * s.S) ((k + 1) * s.S) m ∧ ∀ q, (k + 1) * s.S ≤ q → q < r1 * s.S → m < ex1 s.mem q) →
      ∃ k, s.medRmq i r1 m = some (some k, m) ∧ i * s.S ≤ k * s.S ∧ (k + 1) * s.S ≤ r1 * s.S ∧ MinOn (ex1 s.mem) (k * s.S) ((k + 1) * s.S) m ∧
      ∀ q, (k + 1) * s.S ≤ q → q < r1 * s.S → m < ex1 s.mem q := by
    intro o' e hm
    cases o' with
    | none =>
      obtain ⟨q, g1, g2, g3⟩ := h.att
      have := hm q g1 g2; omega
    | some k => exact ⟨k, e, hm⟩
  by_cases hi : i = 0
  · subst hi
    have h1 : (0 + 1) * s.S ≤ r1 * s.S := Nat.mul_le_mul_right _ (by omega)
    obtain ⟨x, e, hm⟩ := smlMin ok (k := 0) (by omega)
    rw [Nat.mul_zero] at e
    rw [Nat.zero_mul, show exc (bitAt s.mem) 0 = 0 by rfl, Int.zero_add] at hm
    obtain ⟨o', e', hm'⟩ := medRmqLoop_find ok (a := 0) (m := m) (r1 - 1) 1 (if 1 - (x : Int) ≤ m then some 0 else none) (by omega) (by rw [show 1 + (r1 - 1) = r1 by omega]; exact h2)
      (fun q g1 g2 => h.low q (by omega) (by rw [show 1 + (r1 - 1) = r1 by omega] at g2; exact g2)) (by
        by_cases hif : 1 - (x : Int) ≤ m
        · rw [if_pos hif]
          obtain ⟨q, g1, g2, g3⟩ := hm.att
          have := h.low q (by omega) (by omega)
          have hmx : 1 - (x : Int) = m := by omega
          rw [hmx] at hm
          exact ⟨by omega, Nat.le_refl _, by rw [Nat.zero_mul]; exact hm, fun q g4 g5 => by omega⟩
        · rw [if_neg hif]
          intro q g1 g2
          have := hm.low q g1 g2; omega) (Nat.zero_le _)
    rw [show 1 + (r1 - 1) = r1 by omega] at hm'
    refine fin (o' := o') ?_ (by rw [Nat.zero_mul]; exact hm')
    rw [Sada.medRmq, if_pos rfl, e, sbind, ← e']
    congr 1
    split
    · rename_i hif
      obtain ⟨q, g1, g2, g3⟩ := hm.att
      have := h.low q (by omega) (by omega)
      rw [show 1 - (x : Int) = m by omega]
    · rfl
  · obtain ⟨o', e', hm'⟩ := medRmqLoop_find ok (a := i * s.S) (m := m) (r1 - i) i none (by omega) (by rw [show i + (r1 - i) = r1 by omega]; exact h2)
      (fun q g1 g2 => h.low q g1 (by rw [show i + (r1 - i) = r1 by omega] at g2; exact g2)) (fun q g1 g2 => by omega) (Nat.le_refl _)
    rw [show i + (r1 - i) = r1 by omega] at hm'
    refine fin (o' := o') ?_ hm'
    rw [Sada.medRmq, if_neg hi, e']

theorem rmq_ok {s : Sada} {K : Nat} (ok : SadaOk s K) {l r : Nat} (hlr : l ≤ r) (hr : r < s.n) : ∃ p, s.rmq l r = some p ∧ LastMin (ex1 s.mem) l r p := by
  have hS := ok.pS
  have hD := ok.pD
  have hM : 0 < s.S * s.D := Nat.mul_pos hS hD
  have hn := ok.hn
  unfold Sada.rmq
  dsimp only
  by_cases hsb : l / s.S = r / s.S
  · rw [if_pos hsb]
    obtain ⟨z, e, h1, h2, h3, h4, h5, h6⟩ := nearRmq_ok (mem := s.mem) hlr (by omega)
    rw [e, sbind]
    refine ⟨_, rfl, h2, by omega, fun q g1 g2 => ?_, fun q g1 g2 => ?_⟩
    · have := h5 q g1 (by omega); unfold ex1; dsimp only; omega
    · have := h6 q g1 (by omega); unfold ex1; dsimp only; omega
  · rw [if_neg hsb]
    have a1 : l / s.S * s.S ≤ l := Nat.div_mul_le_self _ _
    have a2 : l < (l / s.S + 1) * s.S := by have := Nat.lt_mul_div_succ l hS; rw [Nat.mul_comm]; exact this
    have a3 : r / s.S * s.S ≤ r := Nat.div_mul_le_self _ _
    have a4 : r < (r / s.S + 1) * s.S := by have := Nat.lt_mul_div_succ r hS; rw [Nat.mul_comm]; exact this
    have a5 : l / s.S < r / s.S := by have : l / s.S ≤ r / s.S := Nat.div_le_div_right hlr; omega
    have a6 : (l / s.S + 1) * s.S ≤ r / s.S * s.S := Nat.mul_le_mul_right _ (by omega)
    have b1 : l / (s.S * s.D) = l / s.S / s.D := (Nat.div_div_eq_div_mul _ _ _).symm
    have b2 : r / (s.S * s.D) = r / s.S / s.D := (Nat.div_div_eq_div_mul _ _ _).symm
    rw [b1, b2]
    have c1 : l / s.S / s.D * s.D ≤ l / s.S := Nat.div_mul_le_self _ _
    have c2 : l / s.S < (l / s.S / s.D + 1) * s.D := by have := Nat.lt_mul_div_succ (l / s.S) hD; rw [Nat.mul_comm]; exact this
    have c3 : r / s.S / s.D * s.D ≤ r / s.S := Nat.div_mul_le_self _ _
    have c4 : r / s.S < (r / s.S / s.D + 1) * s.D := by have := Nat.lt_mul_div_succ (r / s.S) hD; rw [Nat.mul_comm]; exact this
    have c5 : l / s.S / s.D ≤ r / s.S / s.D := Nat.div_le_div_right (by omega)
    generalize l / s.S = sbl at *
    generalize r / s.S = sbr at *
    generalize sbl / s.D = mbl at *
    generalize sbr / s.D = mbr at *
    have hE : ∀ m, m * (s.S * s.D) = m * s.D * s.S := fun m => by rw [Nat.mul_comm s.S, Nat.mul_assoc]
    -- first part
    obtain ⟨z, e, h1, h2, h3, h4, h5, h6⟩ := nearRmq_ok (mem := s.mem) (l := l) (r := (sbl + 1) * s.S - 1) (by omega) (by omega)
    rw [show (sbl + 1) * s.S - 1 + 1 = (sbl + 1) * s.S by omega] at h3 h5 h6
    rw [e, sbind]
    dsimp only
    rw [excess_ok (by omega), sbind]
    have hms0 : MSL s l ((sbl + 1) * s.S) ((sbl + 1) * s.S) (.pos z.pos, exc (bitAt s.mem) (l + 1) + z.min) := by
      refine ⟨_, _, DescL.pos _, h2, by omega, ⟨z.pos, by omega, by omega, by unfold ex1; dsimp only; omega⟩, fun q g1 g2 => ?_, Or.inl (fun q g1 g2 => ?_)⟩
      · have := h5 q g1 g2; unfold ex1; dsimp only; omega
      · have := h6 q (by omega) g2; unfold ex1; dsimp only; omega
    have hmin : sbl + 1 ≤ min ((mbl + 1) * s.D) sbr := by omega
    have hminS : min ((mbl + 1) * s.D) sbr * s.S ≤ sbr * s.S := Nat.mul_le_mul_right _ (by omega)
    have hminS' : (sbl + 1) * s.S ≤ min ((mbl + 1) * s.D) sbr * s.S := Nat.mul_le_mul_right _ hmin
    obtain ⟨t1, e1, hms1⟩ := medRmq_ok ok (Dsc := DescL s) (fun k => DescL.small k) (.pos z.pos) (by omega) hmin (by omega) (by omega) (Nat.le_refl _) hms0
    rw [e1, sbind]
    rw [show max ((sbl + 1) * s.S) (min ((mbl + 1) * s.D) sbr * s.S) = min ((mbl + 1) * s.D) sbr * s.S by omega] at hms1
    -- the tree
    have tree : ∃ st c, s.rmqTree mbl mbr (toSmall t1 (.pos z.pos)) = some st ∧ MSL s l c c st ∧ max (mbr * s.D) (sbl + 1) * s.S ≤ c ∧ c ≤ sbr * s.S := by
      rcases Nat.lt_or_ge mbl mbr with hlt | hge
      · have h7 : (mbl + 1) * s.D ≤ mbr * s.D := Nat.mul_le_mul_right _ hlt
        rw [show min ((mbl + 1) * s.D) sbr = (mbl + 1) * s.D by omega, ← hE] at hms1
        have h8 : mbr * (s.S * s.D) ≤ sbr * s.S := by rw [hE]; exact Nat.mul_le_mul_right _ c3
        have h9 : (sbl + 1) * s.S ≤ (mbl + 1) * (s.S * s.D) := by rw [hE]; exact Nat.mul_le_mul_right _ c2
        obtain ⟨st, e2, hst⟩ := rmqTree_ok ok hlt (by omega) (by omega) toSmall_notMed hms1
        exact ⟨st, _, e2, hst, by rw [show max (mbr * s.D) (sbl + 1) = mbr * s.D by omega, hE], h8⟩
      · obtain rfl : mbl = mbr := by omega
        rw [show min ((mbl + 1) * s.D) sbr = sbr by omega] at hms1
        refine ⟨_, _, by rw [Sada.rmqTree, if_neg (by omega)], hms1, ?_, Nat.le_refl _⟩
        rw [show max (mbl * s.D) (sbl + 1) = sbl + 1 by omega]
        exact a6
    obtain ⟨st, c, e2, ⟨a0, e0, hd0, hreg0⟩, hc1, hc2⟩ := tree
    rw [e2, sbind]
    have hmax : (sbl + 1) * s.S ≤ max (mbr * s.D) (sbl + 1) * s.S := Nat.mul_le_mul_right _ (by omega)
    have hsb1 : max (mbr * s.D) (sbl + 1) ≤ sbr := by omega
    obtain ⟨t2, e3, hms2⟩ := medRmq_ok ok (Dsc := DescL s) (fun k => DescL.small k) st.1 (m := st.2) (show 1 ≤ max (mbr * s.D) (sbl + 1) by omega) hsb1 (by omega) (by omega) hc1 ⟨a0, e0, hd0, hreg0.back _⟩
    rw [e3, sbind]
    rw [show max c (sbr * s.S) = sbr * s.S by omega] at hms2
    generalize toSmall t2 st.1 = st2 at *
    -- the last block
    obtain ⟨w, e4, k1, k2, k3, k4, k5, k6⟩ := nearRmq_ok (mem := s.mem) (l := sbr * s.S) (r := r) a3 (by omega)
    rw [e4, sbind]
    dsimp only
    rw [excess_ok (by omega), sbind]
    obtain ⟨a, e', hd, hreg⟩ := hms2
    have hla := hreg.la
    have hec := hreg.ec
    split
    · rename_i hif
      refine ⟨_, rfl, by omega, by omega, fun q g1 g2 => ?_, fun q g1 g2 => ?_⟩
      · rcases Nat.lt_or_ge q (sbr * s.S) with h7 | h7
        · have := hreg.low q g1 h7; unfold ex1 at *; omega
        · have := k5 q h7 (by omega); unfold ex1; omega
      · have := k6 q g1 (by omega); unfold ex1; omega
    · rename_i hif
      have hlast : ∀ q, sbr * s.S ≤ q → q ≤ r → st2.2 < ex1 s.mem q := fun q g1 g2 => by
        have := k5 q g1 (by omega); unfold ex1; omega
      -- a small block
      have small : ∀ k, l ≤ k * s.S → (k + 1) * s.S ≤ sbr * s.S → MinOn (ex1 s.mem) (k * s.S) ((k + 1) * s.S) st2.2 → (∀ q, (k + 1) * s.S ≤ q → q < sbr * s.S → st2.2 < ex1 s.mem q) →
          ∃ p, (do
            let x ← nearRmq s.mem (k * s.S) ((k + 1) * s.S - 1)
            some x.1) = some p ∧ LastMin (ex1 s.mem) l r p := by
        intro k g1 g2 g3 g4
        have hlt : k * s.S < (k + 1) * s.S := by rw [Nat.add_mul]; omega
        obtain ⟨y, e5, y1, y2, y3, y4, y5, y6⟩ := nearRmq_ok (mem := s.mem) (l := k * s.S) (r := (k + 1) * s.S - 1) (by omega) (by omega)
        rw [show (k + 1) * s.S - 1 + 1 = (k + 1) * s.S by omega] at y3 y5 y6
        have hval : ex1 s.mem y.pos = st2.2 := by
          obtain ⟨q, g5, g6, g7⟩ := g3.att
          have h7 := y5 q g5 g6
          have h8 := g3.low y.pos y2 y3
          unfold ex1 at *; omega
        rw [e5, sbind]
        refine ⟨_, rfl, by omega, by omega, fun q g5 g6 => ?_, fun q g5 g6 => ?_⟩
        · rw [hval]
          rcases Nat.lt_or_ge q (sbr * s.S) with h7 | h7
          · exact hreg.low q g5 h7
          · have := hlast q h7 g6; omega
        · rcases Nat.lt_or_ge q (sbr * s.S) with h7 | h7
          · rcases Nat.lt_or_ge q ((k + 1) * s.S) with h8 | h8
            · have := y6 q g5 h8; unfold ex1; dsimp only; omega
            · rw [hval]; exact g4 q h8 h7
          · rw [hval]; exact hlast q h7 g6
      obtain ⟨P, m⟩ := st2
      dsimp only at hd hreg hlast small ⊢
      cases hd with
      | pos =>
        rw [sbind]
        obtain ⟨q, g1, g2, g3⟩ := hreg.att
        obtain rfl : q = a := by omega
        refine ⟨_, rfl, by omega, by omega, fun q' g4 g5 => ?_, fun q' g4 g5 => ?_⟩
        · rw [g3]
          rcases Nat.lt_or_ge q' (sbr * s.S) with h7 | h7
          · exact hreg.low q' g4 h7
          · have := hlast q' h7 g5; omega
        · rw [g3]
          rcases Nat.lt_or_ge q' (sbr * s.S) with h7 | h7
          · exact hreg.strict q' (by omega) h7
          · exact hlast q' h7 g5
      | small k =>
        rw [sbind]
        exact small k hla hec ⟨hreg.att, fun q g1 g2 => hreg.low q (by omega) (by omega)⟩ hreg.strict
      | medium k =>
        have hmo : MinOn (ex1 s.mem) (k * s.D * s.S) ((k + 1) * s.D * s.S) m := by
          rw [hE, hE] at hreg
          rw [hE] at hla hec
          exact ⟨hreg.att, fun q g1 g2 => hreg.low q (by omega) (by omega)⟩
        rw [hE] at hla hec
        obtain ⟨j, e5, j1, j2, j3, j4⟩ := medRmq_find ok (i := k * s.D) (r1 := (k + 1) * s.D) (by rw [Nat.add_mul]; omega) (by omega) hmo
        dsimp only
        rw [show s.inner + k - s.inner = k by omega, e5, sbind]
        dsimp only
        rw [sbind]
        refine small j (by omega) (by omega) j3 (fun q g1 g2 => ?_)
        rcases Nat.lt_or_ge q ((k + 1) * s.D * s.S) with h7 | h7
        · exact j4 q g1 h7
        · exact hreg.strict q (by rw [hE]; exact h7) g2

end Sdsl.Bp
