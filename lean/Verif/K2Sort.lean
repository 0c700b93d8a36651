/-
  Counting and sorting the edges of a node by chunks (K2.lean).
-/
import Verif.K2Query

namespace Sdsl.K2

open Csa Spec

/-- Sums. -/
def sumTo (g : Nat → Nat) : Nat → Nat
  | 0 => 0
  | n + 1 => sumTo g n + g n

theorem sumTo_congr {f g : Nat → Nat} : ∀ n, (∀ c, c < n → f c = g c) → sumTo f n = sumTo g n
  | 0, _ => rfl
  | n + 1, h => by rw [sumTo, sumTo, sumTo_congr n (fun c hc => h c (by omega)), h n (by omega)]

theorem sumTo_dec {f g : Nat → Nat} {c0 : Nat} (h1 : ∀ c, c ≠ c0 → f c = g c) (h2 : f c0 + 1 = g c0) : ∀ n, c0 < n → sumTo f n + 1 = sumTo g n
  | 0, h => by omega
  | n + 1, h => by
    rw [sumTo, sumTo]
    by_cases hc : c0 = n
    · subst hc
      rw [sumTo_congr c0 (fun c hc => h1 c (by omega))]
      omega
    · have := sumTo_dec h1 h2 n (by omega)
      have := h1 n (by omega)
      omega

/-- The entries `[i, j)`. -/
def slice {α : Type} (E : List α) (i j : Nat) : List α := (E.drop i).take (j - i)

theorem mem_slice {α : Type} {E : List α} {i j : Nat} {p : α} : p ∈ slice E i j ↔ ∃ m, i ≤ m ∧ m < j ∧ E[m]? = some p := by
  rw [slice, List.mem_iff_getElem?]
  constructor
  · rintro ⟨n, h⟩
    rw [List.getElem?_take] at h
    split at h
    · rw [List.getElem?_drop] at h
      exact ⟨i + n, by omega, by omega, h⟩
    · cases h
  · rintro ⟨m, h1, h2, h3⟩
    refine ⟨m - i, ?_⟩
    rw [List.getElem?_take, if_pos (by omega), List.getElem?_drop, show i + (m - i) = m by omega]
    exact h3

theorem slice_length {α : Type} {E : List α} {i j : Nat} (h : j ≤ E.length) : (slice E i j).length = j - i := by
  rw [slice, List.length_take, List.length_drop]
  omega

/-- `amountLoop` counts. -/
theorem amountLoop_ok {f : Nat × Nat → Nat} {E : List (Nat × Nat)} {K : Nat} : ∀ c it (A : Nat → Nat), it + c ≤ E.length → (∀ p ∈ (E.drop it).take c, f p < K) →
    amountLoop f E c it ((List.range K).map A) = some ((List.range K).map (fun q => A q + ((E.drop it).take c).countP (fun p => f p == q)))
  | 0, it, A, _, _ => by simp [amountLoop]
  | c + 1, it, A, h1, h2 => by
    have hd : E.drop it = E[it] :: E.drop (it + 1) := List.drop_eq_getElem_cons (by omega)
    rw [hd, List.take_succ_cons] at h2 ⊢
    have hf := h2 _ List.mem_cons_self
    have hset : ((List.range K).map A).set (f E[it]) (A (f E[it]) + 1) = (List.range K).map (fun q => A q + if f E[it] = q then 1 else 0) := by
      apply List.ext_getElem?
      intro m
      rw [List.getElem?_set, List.getElem?_map, List.getElem?_map, List.length_map, List.length_range, if_pos hf]
      by_cases g : m < K
      · rw [List.getElem?_range g]
        split
        · rename_i e; simp [e]
        · rename_i e; simp [e]
      · rw [List.getElem?_eq_none (by simp; omega)]
        split
        · omega
        · rfl
    rw [amountLoop, List.getElem?_eq_getElem (by omega), sbind, List.getElem?_map, List.getElem?_range hf, Option.map_some, sbind, hset, amountLoop_ok c (it + 1) _ (by omega) (fun p hp => h2 p (by simp [hp]))]
    congr 1
    apply List.map_congr_left
    intro q _
    rw [List.countP_cons]
    by_cases g : f E[it] = q
    · simp [g]; omega
    · simp [g]

section
variable (f : Nat × Nat → Nat) (E0 : List (Nat × Nat)) (i j K : Nat)

/-- The start of a chunk after sorting. -/
def start (c : Nat) : Nat := i + (slice E0 i j).countP (fun p => decide (f p < c))

/-- The number of edges of a chunk. -/
def amt (c : Nat) : Nat := (slice E0 i j).countP (fun p => f p == c)

theorem start_zero : start f E0 i j 0 = i := by simp [start]

theorem start_succ (c : Nat) : start f E0 i j (c + 1) = start f E0 i j c + amt f E0 i j c := by
  rw [start, start, amt]
  induction slice E0 i j with
  | nil => simp
  | cons p l ih =>
    rw [List.countP_cons, List.countP_cons, List.countP_cons]
    have : (if decide (f p < c + 1) = true then 1 else 0) = (if decide (f p < c) = true then 1 else 0) + (if (f p == c) = true then 1 else 0) := by
      rcases Nat.lt_trichotomy (f p) c with g | g | g
      · have h1 : f p < c + 1 := by omega
        have h2 : f p ≠ c := by omega
        simp [g, h1, h2]
      · simp [g]
      · have h1 : ¬ f p < c + 1 := by omega
        have h2 : f p ≠ c := by omega
        have h3 : ¬ f p < c := by omega
        simp [h1, h2, h3]
    omega

theorem start_mono {c d : Nat} (h : c ≤ d) : start f E0 i j c ≤ start f E0 i j d := by
  induction d with
  | zero => rw [show c = 0 by omega]
  | succ d ih =>
    by_cases g : c = d + 1
    · rw [g]
    · have := ih (by omega)
      rw [start_succ]; omega

variable {f E0 i j K}

theorem start_last (hj : j ≤ E0.length) (hij : i ≤ j) (hf : ∀ p ∈ slice E0 i j, f p < K) : start f E0 i j K = j := by
  have : (slice E0 i j).countP (fun p => decide (f p < K)) = (slice E0 i j).length := by
    rw [List.countP_eq_length]
    intro p hp
    simpa using hf p hp
  rw [start, this, slice_length hj]
  omega

/-- A position belongs to a chunk. -/
theorem find_chunk (K : Nat) {m : Nat} (h1 : i ≤ m) (h2 : m < start f E0 i j K) : ∃ c, c < K ∧ start f E0 i j c ≤ m ∧ m < start f E0 i j (c + 1) := by
  induction K with
  | zero => rw [start_zero] at h2; omega
  | succ K ih =>
    by_cases g : m < start f E0 i j K
    · obtain ⟨c, c1, c2⟩ := ih g
      exact ⟨c, by omega, c2⟩
    · exact ⟨K, by omega, by omega, h2⟩

/-- `posList`. -/
theorem posList_ok : ∀ c q, posList (start f E0 i j q) ((List.range' q c).map (amt f E0 i j)) = (List.range' q c).map (start f E0 i j)
  | 0, q => by simp [posList]
  | c + 1, q => by
    rw [List.range'_succ, List.map_cons, posList, List.map_cons, ← start_succ, posList_ok c (q + 1)]

/-- Elements in different places. -/
theorem count_two {S : List (Nat × Nat)} {P : Nat × Nat → Bool} {s e m : Nat} (he : e ≤ S.length) (h1 : ∀ n, s ≤ n → n < e → ∃ p, S[n]? = some p ∧ P p = true) (hm : m < s ∨ e ≤ m) (h2 : ∃ p, S[m]? = some p ∧ P p = true) (hse : s ≤ e) :
    e - s + 1 ≤ S.countP P := by
  have hS : S = S.take s ++ ((S.drop s).take (e - s) ++ S.drop e) := by
    have : S.drop e = (S.drop s).drop (e - s) := by rw [List.drop_drop, show s + (e - s) = e by omega]
    rw [this, List.take_append_drop, List.take_append_drop]
  have hmid : ((S.drop s).take (e - s)).countP P = e - s := by
    rw [List.countP_eq_length.2, List.length_take, List.length_drop]
    · omega
    · intro p hp
      obtain ⟨n, a1, a2, a3⟩ := (mem_slice (E := S) (i := s) (j := e)).1 hp
      obtain ⟨p', b1, b2⟩ := h1 n a1 a2
      rw [a3] at b1
      cases b1
      exact b2
  obtain ⟨p, p1, p2⟩ := h2
  rw [hS, List.countP_append, List.countP_append, hmid]
  rcases hm with hm | hm
  · have : 0 < (S.take s).countP P := List.countP_pos_iff.2 ⟨p, List.mem_iff_getElem?.2 ⟨m, by rw [List.getElem?_take, if_pos hm]; exact p1⟩, p2⟩
    omega
  · have : 0 < (S.drop e).countP P := List.countP_pos_iff.2 ⟨p, List.mem_iff_getElem?.2 ⟨m - e, by rw [List.getElem?_drop, show e + (m - e) = m by omega]; exact p1⟩, p2⟩
    omega

/-- The state of the sorting phase. -/
structure SInv (f : Nat × Nat → Nat) (E0 : List (Nat × Nat)) (i j K : Nat) (E : List (Nat × Nat)) (P : Nat → Nat) : Prop where
  out : ∀ m, m < i ∨ j ≤ m → E[m]? = E0[m]?
  perm : (slice E i j).Perm (slice E0 i j)
  pos : ∀ c, c < K → start f E0 i j c ≤ P c ∧ P c ≤ start f E0 i j (c + 1)
  placed : ∀ c, c < K → ∀ m, start f E0 i j c ≤ m → m < P c → ∃ p, E[m]? = some p ∧ f p = c
  len : E.length = E0.length

/-- The work that remains. -/
def rem (f : Nat × Nat → Nat) (E0 : List (Nat × Nat)) (i j K : Nat) (P : Nat → Nat) : Nat := sumTo (fun c => start f E0 i j (c + 1) - P c) K

variable (hj : j ≤ E0.length) (hij : i ≤ j) (hf : ∀ p ∈ slice E0 i j, f p < K)
include hj hij hf

theorem SInv.rem_le {E : List (Nat × Nat)} {P : Nat → Nat} (hI : SInv f E0 i j K E P) : rem f E0 i j K P ≤ j - i := by
  have h1 : ∀ n, n ≤ K → sumTo (fun c => start f E0 i j (c + 1) - P c) n ≤ start f E0 i j n - i := by
    intro n
    induction n with
    | zero => intro _; simp [sumTo]
    | succ n ih =>
      intro hn
      have := ih (by omega)
      have := hI.pos n (by omega)
      have h3 := start_succ f E0 i j n
      have h4 := start_mono f E0 i j (Nat.zero_le n)
      rw [start_zero] at h4
      rw [sumTo]
      omega
  have := h1 K (Nat.le_refl _)
  rwa [start_last hj hij hf] at this

/-- The edge at a position of an unfinished chunk. -/
theorem SInv.next {E : List (Nat × Nat)} {P : Nat → Nat} (hI : SInv f E0 i j K E P) {ch : Nat} (hch : ch < K) (hdone : ∀ c, c < ch → P c = start f E0 i j (c + 1)) (hlt : P ch < start f E0 i j (ch + 1)) :
    ∃ e, E[P ch]? = some e ∧ i ≤ P ch ∧ P ch < j ∧ f e < K ∧ ch ≤ f e ∧ P (f e) < start f E0 i j (f e + 1) ∧ (ch < f e → P ch < P (f e)) := by
  have hlast := start_last hj hij hf
  have hm0 := start_mono f E0 i j (Nat.zero_le ch)
  have hm1 := start_mono f E0 i j (show ch + 1 ≤ K from hch)
  rw [start_zero] at hm0
  rw [hlast] at hm1
  have hp := hI.pos ch hch
  have hlen := hI.len
  have hx : P ch < E.length := by omega
  have hmem : E[P ch] ∈ slice E i j := mem_slice.2 ⟨P ch, by omega, by omega, List.getElem?_eq_getElem hx⟩
  have hfe : f E[P ch] < K := hf _ (hI.perm.subset hmem)
  -- the count of the chunk
  have hcount : ∀ c, c < K → f E[P ch] = c → (P ch < start f E0 i j c ∨ P c ≤ P ch) → P c < start f E0 i j (c + 1) := by
    intro c hc hec hout
    have h1 := hI.perm.countP_eq (fun p => f p == c)
    have h2 := start_succ f E0 i j c
    have h3 := hI.pos c hc
    have hc0 := start_mono f E0 i j (Nat.zero_le c)
    have hc1 := start_mono f E0 i j (show c + 1 ≤ K from hc)
    rw [start_zero] at hc0
    rw [hlast] at hc1
    have hget : ∀ m, i ≤ m → m < j → (slice E i j)[m - i]? = E[m]? := by
      intro m a1 a2
      rw [slice, List.getElem?_take, if_pos (by omega), List.getElem?_drop, show i + (m - i) = m by omega]
    have := count_two (S := slice E i j) (P := fun p => f p == c) (s := start f E0 i j c - i) (e := P c - i) (m := P ch - i) (by rw [slice_length (by omega)]; omega) (by
      intro n a1 a2
      obtain ⟨p, p1, p2⟩ := hI.placed c hc (i + n) (by omega) (by omega)
      refine ⟨p, ?_, by simpa using p2⟩
      have := hget (i + n) (by omega) (by omega)
      rw [Nat.add_sub_cancel_left] at this
      rw [this, p1]) (by omega) ⟨E[P ch], by rw [hget _ (by omega) (by omega), List.getElem?_eq_getElem hx], by simpa using hec⟩ (by omega)
    rw [amt] at h2
    omega
  have hge : ch ≤ f E[P ch] := by
    by_contra g
    have h1 := hdone _ (show f E[P ch] < ch by omega)
    have h2 := start_mono f E0 i j (show f E[P ch] + 1 ≤ ch by omega)
    have := hcount _ hfe rfl (.inr (by omega))
    omega
  have hgt : ch < f E[P ch] → P ch < start f E0 i j (f E[P ch]) := fun g => by
    have := start_mono f E0 i j (show ch + 1 ≤ f E[P ch] from g)
    omega
  refine ⟨E[P ch], List.getElem?_eq_getElem hx, by omega, by omega, hfe, hge, ?_, fun g => ?_⟩
  · by_cases g : ch < f E[P ch]
    · exact hcount _ hfe rfl (.inl (hgt g))
    · have h1 : ch = f E[P ch] := by omega
      have key : ∀ c, ch = c → P c < start f E0 i j (c + 1) := by
        rintro c rfl
        exact hlt
      exact key _ h1
  · have h1 := hgt g
    have h2 := (hI.pos _ hfe).1
    omega

/-- One chunk. -/
theorem sortChunk_ok {ch : Nat} (hch : ch < K) : ∀ g E P, SInv f E0 i j K E P → (∀ c, c < ch → P c = start f E0 i j (c + 1)) → rem f E0 i j K P < g →
    ∃ E' P', sortChunk f (start f E0 i j (ch + 1)) g (P ch) ((List.range (K + 1)).map P) E = some ((List.range (K + 1)).map P', E') ∧ SInv f E0 i j K E' P' ∧ ∀ c, c < ch + 1 → P' c = start f E0 i j (c + 1) := by
  intro g
  induction g with
  | zero => intro E P _ _ h; omega
  | succ g ih =>
    intro E P hI hdone hg
    rw [sortChunk]
    by_cases hlt : P ch < start f E0 i j (ch + 1)
    · obtain ⟨e, e1, e2, e3, e4, e5, e6, e7⟩ := hI.next hj hij hf hch hdone hlt
      rw [if_pos hlt, e1, sbind, List.getElem?_map, List.getElem?_range (by omega), Option.map_some, sbind]
      obtain ⟨c, hc⟩ : ∃ c, c = f e := ⟨_, rfl⟩
      rw [← hc] at e4 e5 e6 e7 ⊢
      -- the new positions
      obtain ⟨P2, hP2⟩ : ∃ P2 : Nat → Nat, P2 = fun q => if q = c then P c + 1 else P q := ⟨_, rfl⟩
      have hne : ∀ q, q ≠ c → P2 q = P q := fun q hq => by rw [hP2]; simp [hq]
      have heq : P2 c = P c + 1 := by rw [hP2]; simp
      have hset : ((List.range (K + 1)).map P).set c (P c + 1) = (List.range (K + 1)).map P2 := by
        apply List.ext_getElem?
        intro m
        rw [List.getElem?_set, List.getElem?_map, List.getElem?_map, List.length_map, List.length_range, if_pos (show c < K + 1 by omega)]
        by_cases g : m < K + 1
        · rw [List.getElem?_range g]
          by_cases q : c = m
          · subst q; simp [heq]
          · simp [q, hne m (Ne.symm q)]
        · rw [List.getElem?_eq_none (by simp; omega), if_neg (by omega)]; rfl
      have hrem : rem f E0 i j K P2 + 1 = rem f E0 i j K P := by
        apply sumTo_dec (c0 := c) _ _ K e4
        · intro q hq
          rw [hne q hq]
        · rw [heq]; omega
      have hdone2 : ∀ q, q < ch → P2 q = start f E0 i j (q + 1) := fun q hq => by rw [hne q (by omega), hdone q hq]
      have hpos2 : ∀ q, q < K → start f E0 i j q ≤ P2 q ∧ P2 q ≤ start f E0 i j (q + 1) := by
        intro q hq
        have := hI.pos q hq
        by_cases g : q = c
        · subst g; rw [heq]; omega
        · rw [hne q g]; exact this
      rw [hset]
      by_cases hcc : ch = c
      · subst hcc
        rw [if_neg (by simp)]
        have hI2 : SInv f E0 i j K E P2 := by
          refine ⟨hI.out, hI.perm, hpos2, ?_, hI.len⟩
          intro q hq m h1 h2
          by_cases g : q = ch
          · subst g
            rw [heq] at h2
            by_cases g2 : m < P q
            · exact hI.placed q hq m h1 g2
            · rw [show m = P q by omega]
              exact ⟨e, e1, hc.symm⟩
          · rw [hne q g] at h2
            exact hI.placed q hq m h1 h2
        have := ih E P2 hI2 hdone2 (by omega)
        rwa [heq] at this
      · have hlt2 := e7 (by omega)
        have hc1 := start_mono f E0 i j (show c + 1 ≤ K from e4)
        rw [start_last hj hij hf] at hc1
        have hlen := hI.len
        have hx : P c < E.length := by omega
        obtain ⟨b, hb⟩ : ∃ b, b = E[P c] := ⟨_, rfl⟩
        have hsw : swapAt E (P ch) (P c) = some ((E.set (P ch) b).set (P c) e) := by
          rw [swapAt, e1, sbind, List.getElem?_eq_getElem hx, sbind, hb]
          rfl
        rw [if_pos (by omega), hsw, sbind]
        have hget : ∀ m, ((E.set (P ch) b).set (P c) e)[m]? = if m = P c then some e else if m = P ch then some b else E[m]? := by
          intro m
          rw [List.getElem?_set, List.getElem?_set, List.length_set, if_pos hx, if_pos (show P ch < E.length by omega)]
          by_cases g1 : m = P c
          · rw [if_pos g1.symm, if_pos g1]
          · rw [if_neg (Ne.symm g1), if_neg g1]
            by_cases g2 : m = P ch
            · rw [if_pos g2.symm, if_pos g2]
            · rw [if_neg (Ne.symm g2), if_neg g2]
        have hI2 : SInv f E0 i j K ((E.set (P ch) b).set (P c) e) P2 := by
          refine ⟨?_, ?_, hpos2, ?_, by rw [List.length_set, List.length_set, hI.len]⟩
          · intro m hm
            rw [hget, if_neg (by omega), if_neg (by omega)]
            exact hI.out m hm
          · refine List.Perm.trans ?_ hI.perm
            have hb2 : (slice E i j)[P c - i]? = some b := by
              rw [slice, List.getElem?_take, if_pos (by omega), List.getElem?_drop, show i + (P c - i) = P c by omega, List.getElem?_eq_getElem hx, hb]
            have ha2 : (slice E i j)[P ch - i]? = some e := by
              rw [slice, List.getElem?_take, if_pos (by omega), List.getElem?_drop, show i + (P ch - i) = P ch by omega, e1]
            have : slice ((E.set (P ch) b).set (P c) e) i j = ((slice E i j).set (P ch - i) b).set (P c - i) e := by
              rw [slice, slice, List.drop_set, if_neg (by omega), List.drop_set, if_neg (by omega), List.take_set, List.take_set]
            rw [this]
            obtain ⟨l1, l2⟩ := List.getElem?_eq_some_iff.1 ha2
            obtain ⟨l3, l4⟩ := List.getElem?_eq_some_iff.1 hb2
            rw [← l2, ← l4]
            exact List.set_set_perm l1 l3
          · intro q hq m h1 h2
            rw [hget]
            by_cases g : q = c
            · subst g
              rw [heq] at h2
              by_cases g2 : m = P q
              · rw [if_pos g2]
                exact ⟨e, rfl, hc.symm⟩
              · have := (hI.pos q hq)
                have hch' := start_mono f E0 i j (show ch + 1 ≤ q by omega)
                rw [if_neg g2, if_neg (by omega)]
                exact hI.placed q hq m h1 (by omega)
            · rw [hne q g] at h2
              have hq2 := hI.pos q hq
              have n1 : m ≠ P c := by
                rcases Nat.lt_or_ge q c with g3 | g3
                · have := start_mono f E0 i j (show q + 1 ≤ c by omega)
                  have := hI.pos c e4
                  omega
                · have := start_mono f E0 i j (show c + 1 ≤ q by omega)
                  omega
              have n2 : m ≠ P ch := by
                rcases Nat.lt_trichotomy q ch with g3 | g3 | g3
                · have := start_mono f E0 i j (show q + 1 ≤ ch by omega)
                  have := hI.pos ch hch
                  omega
                · subst g3; omega
                · have := start_mono f E0 i j (show ch + 1 ≤ q by omega)
                  omega
              rw [if_neg n1, if_neg n2]
              exact hI.placed q hq m h1 h2
        have := ih _ P2 hI2 hdone2 (by omega)
        rwa [hne ch hcc] at this
    · rw [if_neg hlt]
      refine ⟨E, P, rfl, hI, fun c hc => ?_⟩
      by_cases g : c = ch
      · subst g
        have := hI.pos c hch
        omega
      · exact hdone c (by omega)

/-- All chunks. -/
theorem sortLoop_ok : ∀ n ch E P, ch + n = K → SInv f E0 i j K E P → (∀ c, c < ch → P c = start f E0 i j (c + 1)) → (∀ c, ch ≤ c → c < K → start f E0 i j c ≤ P c) →
    ∃ E' P', sortLoop f i j ((List.range K).map (amt f E0 i j)) n ch ((List.range (K + 1)).map P) E = some E' ∧ SInv f E0 i j K E' P' ∧ ∀ c, c < K → P' c = start f E0 i j (c + 1) := by
  intro n
  induction n with
  | zero => intro ch E P h1 h2 h3 _; exact ⟨E, P, rfl, h2, fun c hc => h3 c (by omega)⟩
  | succ n ih =>
    intro ch E P h1 h2 h3 h4
    have hbe : chunkBegin i ch ((List.range (K + 1)).map P) = some (start f E0 i j ch) := by
      rw [chunkBegin]
      split
      · rename_i g
        rw [g, start_zero]
      · rename_i g
        rw [List.getElem?_map, List.getElem?_range (by omega), Option.map_some, h3 (ch - 1) (by omega), show ch - 1 + 1 = ch by omega]
    rw [sortLoop, hbe, sbind, List.getElem?_map, List.getElem?_range (by omega), Option.map_some, sbind, List.getElem?_map, List.getElem?_range (by omega), Option.map_some, sbind, ← start_succ]
    obtain ⟨E', P', r1, r2, r3⟩ := sortChunk_ok hj hij hf (show ch < K by omega) (j - i + 1) E P h2 h3 (by have := h2.rem_le hj hij hf; omega)
    rw [r1, sbind]
    exact ih (ch + 1) E' P' (by omega) r2 r3 (fun c _ hc => (r2.pos c hc).1)

/-- The sorting phase. -/
theorem sort_ok : ∃ E', sortLoop f i j ((List.range K).map (amt f E0 i j)) K 0 ((List.range (K + 1)).map (start f E0 i j)) E0 = some E' ∧ E'.length = E0.length ∧ (∀ m, m < i ∨ j ≤ m → E'[m]? = E0[m]?) ∧
    (∀ p, p ∈ slice E' i j ↔ p ∈ slice E0 i j) ∧ ∀ c, c < K → ∀ p, p ∈ slice E' (start f E0 i j c) (start f E0 i j (c + 1)) ↔ p ∈ slice E0 i j ∧ f p = c := by
  obtain ⟨E', P', r1, r2, r3⟩ := sortLoop_ok hj hij hf K 0 E0 (start f E0 i j) (by omega) ⟨fun _ _ => rfl, .refl _, fun c _ => ⟨Nat.le_refl _, start_mono f E0 i j (by omega)⟩, fun c _ m h1 h2 => by omega, rfl⟩
    (fun c hc => by omega) (fun c _ _ => Nat.le_refl _)
  have hlast := start_last hj hij hf
  refine ⟨E', r1, r2.len, r2.out, fun p => r2.perm.mem_iff, fun c hc p => ⟨fun hp => ?_, fun hp => ?_⟩⟩
  · obtain ⟨m, m1, m2, m3⟩ := mem_slice.1 hp
    obtain ⟨p', q1, q2⟩ := r2.placed c hc m m1 (by rw [r3 c hc]; exact m2)
    rw [m3] at q1
    cases q1
    have h0 := start_mono f E0 i j (Nat.zero_le c)
    have h1 := start_mono f E0 i j (show c + 1 ≤ K from hc)
    rw [start_zero] at h0
    exact ⟨r2.perm.mem_iff.1 (mem_slice.2 ⟨m, by omega, by omega, m3⟩), q2⟩
  · obtain ⟨m, m1, m2, m3⟩ := mem_slice.1 (r2.perm.mem_iff.2 hp.1)
    obtain ⟨d, d1, d2, d3⟩ := find_chunk (f := f) (E0 := E0) (i := i) (j := j) K m1 (by omega)
    obtain ⟨p', q1, q2⟩ := r2.placed d d1 m d2 (by rw [r3 d d1]; exact d3)
    rw [m3] at q1
    cases q1
    have : d = c := by rw [← q2, hp.2]
    subst this
    exact mem_slice.2 ⟨m, d2, d3, m3⟩

end
end Sdsl.K2
