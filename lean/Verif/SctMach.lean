/-
  The abstract machine behind the constructions of super-Cartesian trees: at time `q` the parenthesis `q` is written. The state is the
  number of opened positions and the stack of the unclosed ones with the times at which they were opened.
-/
import Verif.Sct
import Verif.Props.BpSada

namespace Sdsl.Sct

open Spec Props

section
variable (lt : Nat → Nat → Bool) (v : Nat → Nat) (n : Nat)

/-- The next parenthesis is an opening one. -/
def isOp (s : Nat × List (Nat × Nat)) : Bool := decide (s.1 < n) && (match s.2 with | [] => true | t :: _ => !lt (v s.1) (v t.1))

def next (q : Nat) (s : Nat × List (Nat × Nat)) : Nat × List (Nat × Nat) :=
  if isOp lt v n s then (s.1 + 1, (s.1, q) :: s.2) else (s.1, s.2.tail)

def S : Nat → Nat × List (Nat × Nat)
  | 0 => (0, [])
  | q + 1 => next lt v n q (S q)

def out (q : Nat) : Bool := isOp lt v n (S lt v n q)

end

variable {lt : Nat → Nat → Bool} {v : Nat → Nat} {n : Nat}

theorem S_op {q : Nat} (h : out lt v n q = true) :
    S lt v n (q + 1) = ((S lt v n q).1 + 1, ((S lt v n q).1, q) :: (S lt v n q).2) := by
  show next lt v n q _ = _
  unfold out at h
  rw [next, if_pos h]

theorem S_cl {q : Nat} (h : out lt v n q = false) : S lt v n (q + 1) = ((S lt v n q).1, (S lt v n q).2.tail) := by
  show next lt v n q _ = _
  unfold out at h
  rw [next, if_neg (by rw [h]; decide)]

theorem out_lt {q : Nat} (h : out lt v n q = true) : (S lt v n q).1 < n := by
  unfold out isOp at h
  rw [Bool.and_eq_true] at h
  exact of_decide_eq_true h.1

theorem out_nil {q i : Nat} (h : S lt v n q = (i, [])) (hi : i < n) : out lt v n q = true := by
  unfold out isOp; rw [h]; simp [hi]

theorem out_cons {q i : Nat} {t : Nat × Nat} {st : List (Nat × Nat)} (h : S lt v n q = (i, t :: st)) (hi : i < n) :
    out lt v n q = !lt (v i) (v t.1) := by
  unfold out isOp; rw [h]; simp [hi]

theorem out_end {q : Nat} (h : (S lt v n q).1 = n) : out lt v n q = false := by
  unfold out isOp; rw [h]; simp

/-- Number of parentheses: two for each closed and one for each open position. -/
theorem S_time : ∀ q, q ≤ 2 * n → q + (S lt v n q).2.length = 2 * (S lt v n q).1 ∧ (S lt v n q).1 ≤ n
  | 0, _ => ⟨rfl, Nat.zero_le _⟩
  | q + 1, h => by
    obtain ⟨h1, h2⟩ := S_time q (by omega)
    cases ho : out lt v n q with
    | true =>
      have := out_lt ho
      rw [S_op ho]; simp; omega
    | false =>
      rw [S_cl ho]
      cases hs : (S lt v n q).2 with
      | nil =>
        rw [hs] at h1
        have h3 : (S lt v n q).1 < n := by simp at h1; omega
        rw [out_nil (i := (S lt v n q).1) (by rw [← hs]) h3] at ho
        cases ho
      | cons t st =>
        rw [hs] at h1
        simp at h1 ⊢; omega

theorem S_end : S lt v n (2 * n) = (n, []) := by
  obtain ⟨h1, h2⟩ := S_time (lt := lt) (v := v) (n := n) (2 * n) (Nat.le_refl _)
  have e1 : (S lt v n (2 * n)).2.length = 0 := by omega
  have e2 : (S lt v n (2 * n)).1 = n := by omega
  rw [← Prod.eta (S lt v n (2 * n)), e2, List.eq_nil_of_length_eq_zero e1]

theorem S_after (d : Nat) : S lt v n (2 * n + d) = (n, []) ∧ out lt v n (2 * n + d) = false := by
  induction d with
  | zero => exact ⟨S_end, out_end (by rw [Nat.add_zero, S_end])⟩
  | succ d ih => 
    have e : S lt v n (2 * n + (d + 1)) = (n, []) := by
      rw [← Nat.add_assoc, S_cl ih.2, ih.1]; rfl
    exact ⟨e, out_end (by rw [e])⟩

theorem S_cnt : ∀ q, countTrue (out lt v n) q = (S lt v n q).1
  | 0 => rfl
  | q + 1 => by
    rw [countTrue, S_cnt q]
    cases ho : out lt v n q with
    | true => rw [S_op ho]; rfl
    | false => rw [S_cl ho]; rfl

/-! ### The unclosed parentheses -/

/-- Positions of the unclosed opening parentheses before `q`, the last one first. -/
def U (b : Nat → Bool) : Nat → List Nat
  | 0 => []
  | q + 1 => if b q then q :: U b q else (U b q).tail

theorem U_ok {b : Nat → Bool} {N : Nat} (hN : ∀ q, q < N → b q = false → U b q ≠ []) : ∀ q, q ≤ N →
    Bp.exc b q = (U b q).length ∧ (∀ i (h : i < (U b q).length), Bp.exc b ((U b q)[i] + 1) = (U b q).length - i) ∧
      (∀ p, p ∈ U b q ↔ Uncl b p q)
  | 0, _ => ⟨rfl, fun i h => absurd h (Nat.not_lt_zero _), fun p => ⟨fun h => absurd h List.not_mem_nil, fun h => absurd h.2.1 (Nat.not_lt_zero _)⟩⟩
  | q + 1, h => by
    obtain ⟨h1, h2, h3⟩ := U_ok hN q (by omega)
    cases hb : b q with
    | true =>
      have e : U b (q + 1) = q :: U b q := by rw [U, if_pos hb]
      have e1 := exc_open hb
      rw [e]
      refine ⟨by rw [e1, h1]; simp, ?_, fun p => ?_⟩
      · intro i hi
        cases i with
        | zero => simp; try omega
        | succ i =>
          simp only [List.length_cons] at hi
          have := h2 i (by omega)
          simp only [List.getElem_cons_succ, List.length_cons]
          omega
      · rw [List.mem_cons, h3]
        constructor
        · rintro (rfl | hp)
          · exact ⟨hb, by omega, fun r r1 r2 => by rw [show r = p + 1 by omega]⟩
          · refine ⟨hp.1, by have := hp.2.1; omega, fun r r1 r2 => ?_⟩
            rcases Nat.lt_or_ge q r with r3 | r3
            · have := hp.2.2 q hp.2.1 (Nat.le_refl _)
              rw [show r = q + 1 by omega]; omega
            · exact hp.2.2 r r1 r3
        · intro hp
          have := hp.2.1
          rcases Nat.lt_or_ge p q with h4 | h4
          · exact Or.inr (hp.left h4 (by omega))
          · exact Or.inl (by omega)
    | false =>
      have e : U b (q + 1) = (U b q).tail := by rw [U, if_neg (by rw [hb]; decide)]
      have e1 := exc_close hb
      have hne := hN q (by omega) hb
      rw [e]
      cases hu : U b q with
      | nil => exact absurd hu hne
      | cons a u =>
        rw [hu] at h1 h2 h3
        simp only [List.length_cons] at h1 h2
        refine ⟨by simp only [List.tail_cons]; omega, ?_, fun p => ?_⟩
        · intro i hi
          simp only [List.tail_cons] at hi ⊢
          have := h2 (i + 1) (by omega)
          simp only [List.getElem_cons_succ] at this
          omega
        · simp only [List.tail_cons]
          have ha := h2 0 (by omega)
          simp only [List.getElem_cons_zero] at ha
          constructor
          · intro hp
            have hp2 := (h3 p).1 (List.mem_cons_of_mem _ hp)
            obtain ⟨i, hi, rfl⟩ := List.mem_iff_getElem.1 hp
            have := h2 (i + 1) (by omega)
            simp only [List.getElem_cons_succ] at this
            refine ⟨hp2.1, by have := hp2.2.1; omega, fun r r1 r2 => ?_⟩
            rcases Nat.lt_or_ge q r with r3 | r3
            · rw [show r = q + 1 by omega]; omega
            · exact hp2.2.2 r r1 r3
          · intro hp
            have hpq : p < q := by
              have := hp.2.1
              rcases Nat.lt_or_ge p q with h4 | h4
              · exact h4
              · have h5 := hp.1
                rw [show p = q by omega, hb] at h5; cases h5
            rcases List.mem_cons.1 ((h3 p).2 (hp.left hpq (by omega))) with rfl | h4
            · have := hp.2.2 (q + 1) (by omega) (Nat.le_refl _)
              omega
            · exact h4

theorem U_S : ∀ q, U (out lt v n) q = (S lt v n q).2.map Prod.snd
  | 0 => rfl
  | q + 1 => by
    cases ho : out lt v n q with
    | true => rw [S_op ho, U, if_pos ho, U_S q]; rfl
    | false => rw [S_cl ho, U, if_neg (by rw [ho]; decide), U_S q, List.map_tail]

theorem S_ne {q : Nat} (hq : q < 2 * n) (h : out lt v n q = false) : (S lt v n q).2 ≠ [] := by
  intro e
  obtain ⟨h1, h2⟩ := S_time (lt := lt) (v := v) (n := n) q (by omega)
  rw [e] at h1
  simp at h1
  rw [out_nil (i := (S lt v n q).1) (by rw [← e]) (by omega)] at h
  cases h

theorem out_ok {q : Nat} (hq : q ≤ 2 * n) : Bp.exc (out lt v n) q = (U (out lt v n) q).length ∧
    (∀ i (h : i < (U (out lt v n) q).length), Bp.exc (out lt v n) ((U (out lt v n) q)[i] + 1) = (U (out lt v n) q).length - i) ∧
      (∀ p, p ∈ U (out lt v n) q ↔ Uncl (out lt v n) p q) :=
  U_ok (b := out lt v n) (N := 2 * n) (fun q hq h e => by
    rw [U_S, List.map_eq_nil_iff] at e
    exact S_ne hq h e) q hq

theorem out_balanced : Balanced (out lt v n) 0 (2 * n) := by
  apply balanced_of_exc (Nat.zero_le _)
  · rw [(out_ok (lt := lt) (v := v) (Nat.le_refl (2 * n))).1, U_S, S_end]; rfl
  · intro k _ hk
    rw [(out_ok (lt := lt) (v := v) hk).1]
    show (0 : Int) ≤ _
    omega

/-! ### The stacked positions -/

/-- The entries of the stack. -/
structure StOk (lt : Nat → Nat → Bool) (v : Nat → Nat) (n q : Nat) (s : Nat × List (Nat × Nat)) : Prop where
  ent : ∀ t ∈ s.2, t.1 < s.1 ∧ t.2 < q ∧ out lt v n t.2 = true ∧ countTrue (out lt v n) t.2 = t.1
  keep : ∀ t ∈ s.2, ∀ k, t.1 < k → k < s.1 → lt (v k) (v t.1) = false
  all : s.1 < n → ∀ i, i < s.1 → (∀ k, i < k → k ≤ s.1 → lt (v k) (v i) = false) → ∃ p, (i, p) ∈ s.2
  desc : (s.2.map Prod.fst).Pairwise (· > ·)

theorem S_ok (tr : ∀ a b c, lt a b = false → lt b c = false → lt a c = false) : ∀ q, StOk lt v n q (S lt v n q)
  | 0 => ⟨fun t h => absurd h List.not_mem_nil, fun t h => absurd h List.not_mem_nil, fun _ i h => absurd h (Nat.not_lt_zero _), List.Pairwise.nil⟩
  | q + 1 => by
    have ih := S_ok tr q
    have hc := S_cnt (lt := lt) (v := v) (n := n) q
    cases ho : out lt v n q with
    | true =>
      have hn := out_lt ho
      rw [S_op ho]
      cases hS : S lt v n q with
      | mk i st =>
      rw [hS] at ih hn hc
      dsimp only at hn hc ⊢
      have top : ∀ t ∈ st, lt (v i) (v t.1) = false := by
        intro t ht
        cases st with
        | nil => cases ht
        | cons a st =>
          have h1 := out_cons hS hn
          rw [ho] at h1
          have h2 : lt (v i) (v a.1) = false := by simpa using h1.symm
          rcases List.mem_cons.1 ht with rfl | h3
          · exact h2
          · have h4 : a.1 > t.1 := by
              have := ih.desc
              simp only [List.map_cons, List.pairwise_cons] at this
              exact this.1 _ (List.mem_map_of_mem h3)
            have h5 := (ih.ent a (List.mem_cons_self)).1
            exact tr _ _ _ h2 (ih.keep t ht a.1 h4 h5)
      refine ⟨?_, ?_, ?_, ?_⟩
      · intro t ht
        rcases List.mem_cons.1 ht with rfl | ht
        · exact ⟨Nat.lt_succ_self _, Nat.lt_succ_self _, ho, hc⟩
        · obtain ⟨h1, h2, h3⟩ := ih.ent t ht
          dsimp only at h1 ⊢
          exact ⟨by omega, by omega, h3⟩
      · intro t ht k k1 k2
        dsimp only at k2
        rcases List.mem_cons.1 ht with rfl | ht
        · dsimp only at k1; omega
        · rcases Nat.lt_or_ge k i with h | h
          · exact ih.keep t ht k k1 h
          · rw [show k = i by omega]; exact top t ht
      · intro h1 j hj hk
        dsimp only at h1 hj hk ⊢
        rcases Nat.lt_or_ge j i with h | h
        · obtain ⟨p, hp⟩ := ih.all (by dsimp only; omega) j h (fun k k1 k2 => hk k k1 (by dsimp only at k2; omega))
          exact ⟨p, List.mem_cons_of_mem _ hp⟩
        · exact ⟨q, by rw [show j = i by omega]; exact List.mem_cons_self⟩
      · rw [List.map_cons, List.pairwise_cons]
        refine ⟨fun j hj => ?_, ih.desc⟩
        obtain ⟨t, ht, rfl⟩ := List.mem_map.1 hj
        exact (ih.ent t ht).1
    | false =>
      rw [S_cl ho]
      cases hS : S lt v n q with
      | mk i st =>
      rw [hS] at ih
      dsimp only
      have sub : ∀ t ∈ st.tail, t ∈ st := fun t ht => List.mem_of_mem_tail ht
      refine ⟨fun t ht => ?_, fun t ht => ih.keep t (sub t ht), ?_, ?_⟩
      · obtain ⟨h1, h2, h3⟩ := ih.ent t (sub t ht)
        exact ⟨h1, by omega, h3⟩
      · intro h1 j hj hk
        obtain ⟨p, hp⟩ := ih.all h1 j hj hk
        dsimp only at h1 hj hk hp ⊢
        cases st with
        | nil => cases hp
        | cons a st =>
          have h2 := out_cons hS h1
          rw [ho] at h2
          rcases List.mem_cons.1 hp with rfl | hp
          · have := hk i hj (Nat.le_refl _)
            dsimp only at h2
            rw [this] at h2; cases h2
          · exact ⟨p, hp⟩
      · rw [List.map_tail]
        exact ih.desc.sublist (List.tail_sublist _)

/-- The shape of the tree: the pair of position `i` is around the pair of position `j` iff no value up to `j` is in front of the value of `i`. -/
theorem uncl_iff (tr : ∀ a b c, lt a b = false → lt b c = false → lt a c = false) {i j p q : Nat}
    (hp : out lt v n p = true) (hq : out lt v n q = true) (hi : countTrue (out lt v n) p = i) (hj : countTrue (out lt v n) q = j)
    (hij : i < j) : Uncl (out lt v n) p q ↔ ∀ k, i < k → k ≤ j → lt (v k) (v i) = false := by
  have hS := S_cnt (lt := lt) (v := v) (n := n) q
  have ok := S_ok (v := v) (n := n) tr q
  have hn := out_lt hq
  have hq2 : q ≤ 2 * n := by
    rcases Nat.lt_or_ge (2 * n) q with h | h
    · obtain ⟨d, rfl⟩ := Nat.le.dest (Nat.le_of_lt h)
      rw [(S_after d).2] at hq; cases hq
    · exact h
  have hm := (out_ok (lt := lt) (v := v) hq2).2.2 p
  rw [← hm, U_S]
  constructor
  · intro h k k1 k2
    obtain ⟨t, ht, e⟩ := List.mem_map.1 h
    have h1 := (ok.ent t ht).2.2.2
    have hti : t.1 = i := by rw [← h1, e]; exact hi
    rcases Nat.lt_or_ge k j with k3 | k3
    · have := ok.keep t ht k (by omega) (by omega)
      rwa [hti] at this
    · have ek : k = j := by omega
      rw [ek]
      -- the next state contains the entry as well
      have ok2 := S_ok (v := v) (n := n) tr (q + 1)
      rw [S_op hq] at ok2
      have := ok2.keep t (List.mem_cons_of_mem _ ht) j (by omega) (by dsimp only; omega)
      rwa [hti] at this
  · intro h
    obtain ⟨r, hr⟩ := ok.all hn i (by omega) (fun k k1 k2 => h k k1 (by omega))
    have h1 := ok.ent _ hr
    have : r = p := by
      rcases Nat.lt_trichotomy r p with h2 | h2 | h2
      · have := countTrue_lt_of_true (f := out lt v n) h2 h1.2.2.1
        have := h1.2.2.2; dsimp only at this; omega
      · exact h2
      · have := countTrue_lt_of_true (f := out lt v n) h2 hp
        have := h1.2.2.2; dsimp only at this; omega
    exact List.mem_map.2 ⟨_, hr, this⟩

/-! ### Neighbours on the stack -/

/-- Whatever lies between two neighbours of the stack is behind the upper one. -/
def Adj (lt : Nat → Nat → Bool) (v : Nat → Nat) : List (Nat × Nat) → Prop
  | [] => True
  | t :: st => (∀ k, k < t.1 → (∀ s, st.head? = some s → s.1 < k) → lt (v t.1) (v k) = true) ∧ Adj lt v st

theorem Adj.tail {st : List (Nat × Nat)} (h : Adj lt v st) : Adj lt v st.tail := by
  cases st with
  | nil => exact h
  | cons t st => exact h.2

theorem S_adj (tr : ∀ a b c, lt a b = false → lt b c = false → lt a c = false) (tr' : ∀ a b c, lt a b = true → lt b c = true → lt a c = true) :
    ∀ q, Adj lt v (S lt v n q).2
  | 0 => trivial
  | q + 1 => by
    have ih := S_adj tr tr' q
    cases ho : out lt v n q with
    | false => rw [S_cl ho]; exact ih.tail
    | true =>
      have hn := out_lt ho
      have ok := S_ok (v := v) (n := n) tr q
      rw [S_op ho]
      refine ⟨?_, ih⟩
      dsimp only
      have key : ∀ d k, k < (S lt v n q).1 → (S lt v n q).1 - k ≤ d → (∀ s, (S lt v n q).2.head? = some s → s.1 < k) → lt (v (S lt v n q).1) (v k) = true := by
        intro d
        induction d with
        | zero => intro k hk hd; omega
        | succ d ihd =>
          intro k hk hd hs
          have h1 : ¬ ∃ p, (k, p) ∈ (S lt v n q).2 := by
            rintro ⟨p, hp⟩
            cases hst : (S lt v n q).2 with
            | nil => rw [hst] at hp; cases hp
            | cons a st =>
              have h2 := hs a (by rw [hst]; rfl)
              have h3 := ok.desc
              rw [hst] at hp h3
              simp only [List.map_cons, List.pairwise_cons] at h3
              rcases List.mem_cons.1 hp with e | h4
              · rw [← e] at h2; dsimp only at h2; omega
              · have := h3.1 k (List.mem_map_of_mem (f := Prod.fst) h4)
                omega
          have h2 : ∃ k', k < k' ∧ k' ≤ (S lt v n q).1 ∧ lt (v k') (v k) = true := by
            by_cases c : ∃ k', k < k' ∧ k' ≤ (S lt v n q).1 ∧ lt (v k') (v k) = true
            · exact c
            · refine absurd (ok.all hn k hk (fun k' k1 k2 => ?_)) h1
              cases h3 : lt (v k') (v k) with
              | false => rfl
              | true => exact absurd ⟨k', k1, k2, h3⟩ c
          obtain ⟨k', k1, k2, k3⟩ := h2
          rcases Nat.lt_or_ge k' (S lt v n q).1 with c | c
          · exact tr' _ _ _ (ihd k' c (by omega) (fun s hs' => by have := hs s hs'; omega)) k3
          · rwa [show k' = (S lt v n q).1 by omega] at k3
      exact fun k hk hs => key _ k hk (Nat.le_refl _) hs

/-- A closing parenthesis matches the opening one of the top of the stack. -/
theorem S_match {q : Nat} (tr : ∀ a b c, lt a b = false → lt b c = false → lt a c = false) (hq : q < 2 * n) (ho : out lt v n q = false) {i : Nat} {a : Nat × Nat} {st : List (Nat × Nat)}
    (hS : S lt v n q = (i, a :: st)) : Match (out lt v n) a.2 q := by
  have ok := S_ok (v := v) (n := n) tr q
  rw [hS] at ok
  have h1 := ok.ent a List.mem_cons_self
  obtain ⟨u1, u2, u3⟩ := out_ok (lt := lt) (v := v) (n := n) (q := q) (by omega)
  have hU : U (out lt v n) q = a.2 :: st.map Prod.snd := by rw [U_S, hS]; rfl
  have h2 := u2 0 (by rw [hU]; simp)
  simp only [hU, List.getElem_cons_zero] at h2
  have h3 := (u3 a.2).1 (by rw [hU]; exact List.mem_cons_self)
  rw [hU] at u1
  refine ⟨h1.2.2.1, ho, balanced_of_exc h1.2.1 (by rw [u1, h2]; simp) (fun k k1 k2 => ?_)⟩
  rcases Nat.lt_or_ge (a.2 + 1) k with c | c
  · exact h3.2.2 k (by omega) k2
  · rw [show k = a.2 + 1 by omega]

end Sdsl.Sct
