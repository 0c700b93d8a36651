/-
  The loops of the constructors of `wt_gmr_rs` and `wt_gmr`.
-/
import Verif.WtGmrPerm
import Verif.CsaLemmas
import Verif.CsaNav
import Verif.LcpRepLemmas

namespace Sdsl.Csa.Gmr

open _root_.Sdsl.Csa

/-! ### Sums -/

/-- `g 0 + … + g (k-1)`. -/
def pre (g : Nat → Nat) : Nat → Nat
  | 0 => 0
  | k + 1 => pre g k + g k

theorem pre_mono (g : Nat → Nat) {a b : Nat} (h : a ≤ b) : pre g a ≤ pre g b := by
  induction b with
  | zero => rw [show a = 0 by omega]
  | succ b ih =>
    by_cases c : a = b + 1
    · rw [c]
    · have := ih (by omega)
      rw [pre]; omega

theorem pre_congr {g h : Nat → Nat} {k : Nat} (e : ∀ t, t < k → g t = h t) : pre g k = pre h k := by
  induction k with
  | zero => rfl
  | succ k ih => rw [pre, pre, ih (fun t ht => e t (by omega)), e k (by omega)]

/-! ### Numbers in unary -/

theorem ones_spec : ∀ (k l : Nat) (b : List Bool), l + k ≤ b.length →
    ∃ b', ones k l b = some (l + k, b') ∧ b'.length = b.length ∧ ∀ q, Bv.bit b' q = (decide (l ≤ q ∧ q < l + k) || Bv.bit b q)
  | 0, l, b, _ => ⟨b, rfl, rfl, fun q => by rw [decide_eq_false (by omega), Bool.false_or]⟩
  | k + 1, l, b, h => by
    obtain ⟨b', e1, e2, e3⟩ := ones_spec k (l + 1) (b.set l true) (by rw [List.length_set]; omega)
    refine ⟨b', ?_, by rw [e2, List.length_set], fun q => ?_⟩
    · rw [ones, Bv.set_of_lt (by omega), sbind, e1, show l + 1 + k = l + (k + 1) by omega]
    · rw [e3, Bv.bit_set (by omega)]
      by_cases c : q = l
      · rw [if_pos c, Bool.or_true, decide_eq_true (by omega), Bool.true_or]
      · rw [if_neg c]
        congr 1
        exact decide_eq_decide.2 (by omega)

theorem onesX_eq : ∀ (k xp : Nat) (b : List Bool), onesX k xp b = (ones k (xp + 1) b).map (fun r => (r.1 - 1, r.2))
  | 0, xp, b => rfl
  | k + 1, xp, b => by
    rw [onesX, ones]
    cases Bv.set b (xp + 1) true with
    | none => rfl
    | some b' => rw [sbind, sbind, onesX_eq k]

/-- The first `i` numbers are written, everything else is 0. -/
structure Filled (g : Nat → Nat) (i n : Nat) (b : List Bool) : Prop where
  len : b.length = n
  bit : ∀ q, Bv.bit b q = true ↔ ∃ k, k < i ∧ ∃ r, r < g k ∧ q = k + 1 + pre g k + r

theorem Filled.zero (g : Nat → Nat) (n : Nat) : Filled g 0 n (List.replicate n false) :=
  ⟨by simp, fun q => by rw [Bv.bit_replicate]; simp⟩

theorem Filled.step {g : Nat → Nat} {i n : Nat} {b : List Bool} (h : Filled g i n b) (hn : i + 1 + pre g (i + 1) ≤ n) :
    ∃ b', ones (g i) (i + 1 + pre g i) b = some (i + 1 + pre g (i + 1), b') ∧ Filled g (i + 1) n b' := by
  rw [pre] at hn
  obtain ⟨b', e1, e2, e3⟩ := ones_spec (g i) (i + 1 + pre g i) b (by rw [h.len]; omega)
  refine ⟨b', by rw [e1, pre, Nat.add_assoc (i + 1)], by rw [e2, h.len], fun q => ?_⟩
  rw [e3, Bool.or_eq_true, decide_eq_true_iff, h.bit]
  constructor
  · rintro (⟨a1, a2⟩ | ⟨k, k1, k2⟩)
    · exact ⟨i, by omega, q - (i + 1 + pre g i), by omega, by omega⟩
    · exact ⟨k, by omega, k2⟩
  · rintro ⟨k, k1, r, k2, k3⟩
    by_cases c : k = i
    · subst c; exact .inl ⟨by omega, by omega⟩
    · exact .inr ⟨k, by omega, r, k2, k3⟩

theorem unaryLoop_spec {tmp : Arr} {g : Nat → Nat} {n : Nat} : ∀ (k i : Nat) (b : List Bool), (∀ t, t < i + k → tmp.get t = some (g t)) → i + k + 1 + pre g (i + k) ≤ n →
    Filled g i n b → ∃ b', unaryLoop tmp k i (i + 1 + pre g i) b = some b' ∧ Filled g (i + k) n b'
  | 0, i, b, _, _, h => ⟨b, rfl, h⟩
  | k + 1, i, b, ht, hn, h => by
    have := pre_mono g (show i + 1 ≤ i + (k + 1) by omega)
    obtain ⟨b1, e1, e2⟩ := h.step (by omega)
    obtain ⟨b2, f1, f2⟩ := unaryLoop_spec k (i + 1) b1 (fun t h => ht t (by omega)) (by rw [show i + 1 + k = i + (k + 1) by omega]; exact hn) e2
    refine ⟨b2, ?_, by rw [show i + (k + 1) = i + 1 + k by omega]; exact f2⟩
    rw [unaryLoop, ht i (by omega), sbind, e1, sbind]
    dsimp only
    rw [show i + 1 + pre g (i + 1) + 1 = i + 1 + 1 + pre g (i + 1) by omega, f1]

/-- The complete bit vector `0 1^{g 0} 0 1^{g 1} … 0`. -/
structure Un (g : Nat → Nat) (N : Nat) (b : List Bool) : Prop where
  len : b.length = N + pre g N + 1
  zero : ∀ k, k ≤ N → Bv.bit b (k + pre g k) = false
  one : ∀ k r, k < N → r < g k → Bv.bit b (k + 1 + pre g k + r) = true

theorem Filled.un {g : Nat → Nat} {N : Nat} {b : List Bool} (h : Filled g N (N + pre g N + 1) b) : Un g N b := by
  refine ⟨h.len, fun k hk => ?_, fun k r hk hr => (h.bit _).2 ⟨k, hk, r, hr, rfl⟩⟩
  rw [← Bool.not_eq_true, h.bit]
  rintro ⟨j, j1, r, j2, j3⟩
  by_cases c : j < k
  · have := pre_mono g (show j + 1 ≤ k by omega)
    rw [pre] at this
    omega
  · have := pre_mono g (show k ≤ j by omega)
    omega

section
variable {g : Nat → Nat} {N : Nat} {b : List Bool} (h : Un g N b)
include h

theorem Un.cntOne : ∀ k, k ≤ N → Bv.cnt true b (k + pre g k) = pre g k ∧ ∀ r, k < N → r ≤ g k → Bv.cnt true b (k + 1 + pre g k + r) = pre g k + r := by
  have key : ∀ k, k ≤ N → Bv.cnt true b (k + pre g k) = pre g k → ∀ r, k < N → r ≤ g k → Bv.cnt true b (k + 1 + pre g k + r) = pre g k + r := by
    intro k hk e r h1 h2
    induction r with
    | zero =>
      rw [show k + 1 + pre g k + 0 = (k + pre g k) + 1 by omega, Bv.cnt_succ, e, h.zero k hk]; rfl
    | succ r ih =>
      rw [show k + 1 + pre g k + (r + 1) = (k + 1 + pre g k + r) + 1 by omega, Bv.cnt_succ, ih (by omega), h.one k r h1 (by omega)]; rfl
  intro k
  induction k with
  | zero => intro hk; exact ⟨rfl, key 0 hk rfl⟩
  | succ k ih =>
    intro hk
    have e : Bv.cnt true b (k + 1 + pre g (k + 1)) = pre g (k + 1) := by
      rw [pre, show k + 1 + (pre g k + g k) = k + 1 + pre g k + g k by omega]
      exact (ih (by omega)).2 (g k) (by omega) (Nat.le_refl _)
    exact ⟨e, key _ hk e⟩

theorem Un.select0 {k : Nat} (hk : k ≤ N) : Bv.select false b (k + 1) = some (k + pre g k) := by
  have h1 := (h.cntOne k hk).1
  have h2 := Bv.cnt_compl b (k + pre g k)
  have h3 := pre_mono g hk
  have := Bv.select_eq (B := b) (by rw [h.len]; omega) (h.zero k hk)
  rwa [show Bv.cnt false b (k + pre g k) = k by omega] at this

theorem Un.select1 {k r : Nat} (hk : k < N) (hr : r < g k) : Bv.select true b (pre g k + r + 1) = some (k + 1 + pre g k + r) := by
  have h1 := (h.cntOne k (by omega)).2 r hk (by omega)
  have h3 := pre_mono g (show k + 1 ≤ N from hk)
  rw [pre] at h3
  have := Bv.select_eq (B := b) (by rw [h.len]; omega) (h.one k r hk hr)
  rwa [h1] at this

theorem Un.get {q : Nat} (hq : q < N + pre g N + 1) : Bv.get b q = some (Bv.bit b q) := Bv.get_of_lt (by rw [h.len]; exact hq)

end

/-! ### Arrays -/

theorem aset {a : Arr} {i x : Nat} (h : i < a.xs.length) (hx : x < 2 ^ a.width) :
    ∃ a', a.set i x = some a' ∧ a'.xs.length = a.xs.length ∧ a'.width = a.width ∧ a'.get i = some x ∧ ∀ t, t ≠ i → a'.get t = a.get t := by
  refine ⟨_, Arr.set_of_lt h, by simp, rfl, ?_, fun t ht => ?_⟩
  · rw [Arr.get, List.getElem?_set, if_pos rfl, if_pos h, Nat.mod_eq_of_lt hx]
  · rw [Arr.get, List.getElem?_set, if_neg (by omega)]; rfl

theorem get_lt {a : Arr} {i x : Nat} (h : a.get i = some x) : i < a.xs.length := (List.getElem?_eq_some_iff.1 h).1

theorem incr_spec {a : Arr} {i x : Nat} (h : a.get i = some x) (hx : x + 1 < 2 ^ a.width) :
    ∃ a', incr a i = some a' ∧ a'.xs.length = a.xs.length ∧ a'.width = a.width ∧ a'.get i = some (x + 1) ∧ ∀ t, t ≠ i → a'.get t = a.get t := by
  rw [incr, h, sbind]
  exact aset (get_lt h) hx

/-! ### Chunks -/

/-- The elements `o*bs, …, o*bs+bs-1` of `L`. -/
def chunk (bs : Nat) (L : List Nat) (o : Nat) : List Nat := (L.drop (o * bs)).take bs

theorem chunk_length_le (bs : Nat) (L : List Nat) (o : Nat) : (chunk bs L o).length ≤ bs := by
  rw [chunk, List.length_take]; omega

theorem chunk_length (bs : Nat) (L : List Nat) (o : Nat) : (chunk bs L o).length = min bs (L.length - o * bs) := by
  rw [chunk, List.length_take, List.length_drop]

theorem chunk_nil (bs o : Nat) : chunk bs [] o = [] := by simp [chunk]

theorem mul_lt_of {a b K : Nat} (h : a < b) : a * K + K ≤ b * K := by
  have := Nat.mul_le_mul_right K (show a + 1 ≤ b from h)
  rwa [Nat.succ_mul] at this

theorem chunk_append {bs o : Nat} (l : List Nat) (x : Nat) (hb : 0 < bs) :
    chunk bs (l ++ [x]) o = if l.length / bs = o then chunk bs l o ++ [x] else chunk bs l o := by
  have hd := Nat.div_add_mod l.length bs
  have hm := Nat.mod_lt l.length hb
  rw [Nat.mul_comm] at hd
  by_cases c : l.length / bs = o
  · rw [if_pos c]
    subst c
    rw [chunk, chunk, List.drop_append_of_le_length (by omega), List.take_of_length_le (by rw [List.length_append, List.length_drop, List.length_singleton]; omega),
      List.take_of_length_le (by rw [List.length_drop]; omega)]
  · rw [if_neg c, chunk, chunk]
    by_cases c2 : l.length / bs < o
    · have := mul_lt_of (K := bs) c2
      rw [List.drop_eq_nil_of_le (by rw [List.length_append, List.length_singleton]; omega), List.drop_eq_nil_of_le (by omega)]
    · have := mul_lt_of (K := bs) (show o < l.length / bs by omega)
      rw [List.drop_append_of_le_length (by omega), List.take_append_of_le_length (by rw [List.length_drop]; omega)]

theorem take_chunk (bs : Nat) (L : List Nat) (o : Nat) : L.take ((o + 1) * bs) = L.take (o * bs) ++ chunk bs L o := by
  rw [chunk, Nat.succ_mul, List.take_add]

/-- The pair of a symbol and a chunk from its index. -/
theorem pair_inj {a b c d K : Nat} (h1 : b < K) (h2 : d < K) (h : a * K + b = c * K + d) : a = c ∧ b = d := by
  rcases Nat.lt_trichotomy a c with e | e | e
  · have := mul_lt_of (K := K) e; omega
  · subst e; exact ⟨rfl, by omega⟩
  · have := mul_lt_of (K := K) e; omega

theorem countLoop_spec {bs K M : Nat} (hb : 0 < bs) (hMK : M * K < 2 ^ 64) : ∀ (rest l : List Nat) (off j : Nat) (a : Arr), l.length = off * bs + j → j ≤ bs →
    (∀ c ∈ rest, c < M) → (l ++ rest).length ≤ K * bs → bs < 2 ^ a.width → (∀ c o, c < M → o < K → a.get (c * K + o) = some ((chunk bs l o).count c)) →
    ∃ a', countLoop bs K rest off j a = some a' ∧ a'.xs.length = a.xs.length ∧ ∀ c o, c < M → o < K → a'.get (c * K + o) = some ((chunk bs (l ++ rest) o).count c)
  | [], l, off, j, a, _, _, _, _, _, h => ⟨a, rfl, rfl, by rw [List.append_nil]; exact h⟩
  | x :: rest, l, off, j, a, h1, h2, h3, h4, h5, h => by
    rw [countLoop]
    obtain ⟨o', j', hoj, e1, e2⟩ : ∃ o' j', (if j = bs then (off + 1, 0) else (off, j)) = (o', j') ∧ l.length = o' * bs + j' ∧ j' < bs := by
      by_cases c : j = bs
      · exact ⟨off + 1, 0, by rw [if_pos c], by rw [Nat.succ_mul]; omega, hb⟩
      · exact ⟨off, j, by rw [if_neg c], h1, by omega⟩
    rw [hoj]
    dsimp only
    have hx := h3 x (by simp)
    have hl : l.length / bs = o' := by rw [e1, Nat.add_comm]; exact chunk_div e2
    rw [List.length_append, List.length_cons] at h4
    have ho : o' < K := by
      by_contra c
      have := Nat.mul_le_mul_right bs (show K ≤ o' by omega)
      omega
    have hi : x * K + o' < M * K := by have := mul_lt_of (K := K) hx; omega
    rw [show add64 (x * K) o' = x * K + o' from add64_eq (by omega)]
    have hlen := chunk_append (o := o') l x hb
    rw [if_pos hl] at hlen
    have hc1 := chunk_length_le bs (l ++ [x]) o'
    rw [hlen, List.length_append, List.length_singleton] at hc1
    have hc2 : (chunk bs l o').count x ≤ (chunk bs l o').length := List.count_le_length
    obtain ⟨a', f1, f2, f3, f4, f5⟩ := incr_spec (h x o' hx ho) (by omega)
    rw [f1, sbind]
    obtain ⟨a'', g1, g2, g3⟩ := countLoop_spec hb hMK rest (l ++ [x]) o' (j' + 1) a' (by rw [List.length_append, List.length_singleton]; omega) (by omega)
      (fun c hc => h3 c (by simp [hc])) (by simp; omega) (by rw [f3]; exact h5) (by
        intro c o hc ho'
        rw [chunk_append l x hb, hl]
        by_cases e : c * K + o = x * K + o'
        · obtain ⟨rfl, rfl⟩ := pair_inj ho' ho e
          rw [f4, if_pos rfl, List.count_append, List.count_singleton_self]
        · rw [f5 _ e, h c o hc ho']
          by_cases e2 : o' = o
          · subst e2
            rw [if_pos rfl, List.count_append, List.count_singleton, if_neg]
            · rfl
            · simp only [beq_iff_eq]
              rintro rfl
              exact e rfl
          · rw [if_neg e2])
    refine ⟨a'', g1, by rw [g2, f2], ?_⟩
    rw [List.append_assoc] at g3
    exact g3

theorem smaller_succ (L : List Nat) (c : Nat) : smaller L (c + 1) = smaller L c + L.count c := by
  induction L with
  | nil => rfl
  | cons a L ih =>
    rw [smaller] at *
    rw [smaller] at *
    rw [List.countP_cons, List.countP_cons, List.count_cons, ih]
    by_cases h1 : a < c
    · rw [if_pos (by simpa using Nat.lt_succ_of_lt h1), if_pos (by simpa using h1), if_neg (by simp; omega)]; omega
    · by_cases h2 : a = c
      · subst h2; simp; omega
      · rw [if_neg (by simp; omega), if_neg (by simpa using h1), if_neg (by simpa using h2)]; omega

theorem smaller_zero (L : List Nat) : smaller L 0 = 0 := by simp [smaller]

theorem smaller_all {L : List Nat} {M : Nat} (h : ∀ c ∈ L, c < M) : smaller L M = L.length := by
  rw [smaller, List.countP_eq_length]
  simpa using h

theorem pre_smaller (L : List Nat) (k : Nat) : pre (fun c => L.count c) k = smaller L k := by
  induction k with
  | zero => rw [smaller_zero]; rfl
  | succ k ih => rw [pre, ih, smaller_succ]

/-- Sums over the blocks of a symbol. -/
theorem pre_blocks {g : Nat → Nat} {bs K : Nat} {L : List Nat} {M : Nat} (hK : L.length ≤ K * bs) (hg : ∀ c o, c < M → o < K → g (c * K + o) = (chunk bs L o).count c) :
    ∀ c, (c ≤ M → pre g (c * K) = smaller L c) ∧ ∀ o, c < M → o ≤ K → pre g (c * K + o) = smaller L c + (L.take (o * bs)).count c := by
  have key : ∀ c, (c ≤ M → pre g (c * K) = smaller L c) → ∀ o, c < M → o ≤ K → pre g (c * K + o) = smaller L c + (L.take (o * bs)).count c := by
    intro c h o
    induction o with
    | zero => intro hc _; rw [Nat.add_zero, h (by omega)]; simp
    | succ o ih =>
      intro hc ho
      rw [← Nat.add_assoc, pre, ih hc (by omega), hg c o hc (by omega), take_chunk, List.count_append]
      omega
  intro c
  induction c with
  | zero =>
    have e : 0 ≤ M → pre g (0 * K) = smaller L 0 := by intro _; rw [Nat.zero_mul, smaller_zero]; rfl
    exact ⟨e, key 0 e⟩
  | succ c ih =>
    have e : c + 1 ≤ M → pre g ((c + 1) * K) = smaller L (c + 1) := by
      intro h
      rw [Nat.succ_mul, ih.2 K (by omega) (Nat.le_refl _), List.take_of_length_le hK, smaller_succ]
    exact ⟨e, key _ e⟩

/-- Sums over the symbols of the chunks. -/
theorem pre_chunks {g : Nat → Nat} {bs K : Nat} {L : List Nat} {M : Nat} (hM : ∀ c ∈ L, c < M) (hg : ∀ o c, o < K → c < M → g (o * M + c) = (chunk bs L o).count c) :
    ∀ o, (o ≤ K → pre g (o * M) = (L.take (o * bs)).length) ∧ ∀ c, o < K → c ≤ M → pre g (o * M + c) = (L.take (o * bs)).length + smaller (chunk bs L o) c := by
  have key : ∀ o, (o ≤ K → pre g (o * M) = (L.take (o * bs)).length) → ∀ c, o < K → c ≤ M → pre g (o * M + c) = (L.take (o * bs)).length + smaller (chunk bs L o) c := by
    intro o h c
    induction c with
    | zero => intro ho _; rw [Nat.add_zero, h (by omega), smaller_zero]; rfl
    | succ c ih =>
      intro ho hc
      rw [← Nat.add_assoc, pre, ih ho (by omega), hg o c ho (by omega), smaller_succ]
      omega
  intro o
  induction o with
  | zero =>
    have e : 0 ≤ K → pre g (0 * M) = (L.take (0 * bs)).length := by intro _; rw [Nat.zero_mul, Nat.zero_mul]; rfl
    exact ⟨e, key 0 e⟩
  | succ o ih =>
    have e : o + 1 ≤ K → pre g ((o + 1) * M) = (L.take ((o + 1) * bs)).length := by
      intro h
      rw [Nat.succ_mul, ih.2 M (by omega) (Nat.le_refl _), take_chunk, List.length_append, smaller_all]
      intro c hc
      exact hM c (List.mem_of_mem_drop (List.mem_of_mem_take hc))
    exact ⟨e, key _ e⟩

/-! ### Prefix sums and sorting -/

theorem prefixLoop_spec {h : Nat → Nat} : ∀ (k i : Nat) (a : Arr), i + k = a.xs.length → pre h (i + k) < 2 ^ a.width → (∀ t, i ≤ t → t < i + k → a.get t = some (h t)) →
    (∀ t, t < i → a.get t = some (pre h t)) → ∃ a', prefixLoop k i (pre h i) a = some a' ∧ a'.xs.length = a.xs.length ∧ a'.width = a.width ∧ ∀ t, t < i + k → a'.get t = some (pre h t)
  | 0, i, a, _, _, _, h2 => ⟨a, rfl, rfl, rfl, h2⟩
  | k + 1, i, a, hl, hw, h1, h2 => by
    have hm := pre_mono h (show i ≤ i + (k + 1) by omega)
    obtain ⟨a', e1, e2, e3, e4, e5⟩ := aset (a := a) (i := i) (x := pre h i) (by omega) (by omega)
    obtain ⟨a'', f1, f2, f3, f4⟩ := prefixLoop_spec k (i + 1) a' (by omega) (by rw [e3, show i + 1 + k = i + (k + 1) by omega]; exact hw)
      (fun t t1 t2 => by rw [e5 t (by omega)]; exact h1 t (by omega) (by omega))
      (fun t t1 => by
        by_cases c : t = i
        · rw [c]; exact e4
        · rw [e5 t c]; exact h2 t (by omega))
    refine ⟨a'', ?_, by rw [f2, e2], by rw [f3, e3], fun t ht => f4 t (by omega)⟩
    rw [prefixLoop, h1 i (Nat.le_refl _) (by omega), sbind, e1, sbind, ← f1, pre]

/-- Where the counting sort puts position `p` of `L`. -/
def key (L : List Nat) (p : Nat) : Nat := smaller L (sym L p) + (L.take p).count (sym L p)

theorem key_inj {L : List Nat} {p q : Nat} (hp : p < L.length) (hq : q < L.length) (h : key L p = key L q) : p = q := by
  have h1 := count_take_succ hp (sym L p)
  have h2 := count_take_succ hq (sym L q)
  rw [if_pos rfl] at h1 h2
  have h3 : (L.take (p + 1)).count (sym L p) ≤ L.count (sym L p) := (List.take_sublist _ _).count_le _
  have h4 : (L.take (q + 1)).count (sym L q) ≤ L.count (sym L q) := (List.take_sublist _ _).count_le _
  unfold key at h
  have e : sym L p = sym L q := row_unique (L := L) (i := key L p) (by unfold key; omega) (by unfold key; omega) (by unfold key; omega) (by unfold key; omega)
  rw [e] at h h1
  rcases Nat.lt_trichotomy p q with c | c | c
  · have : (L.take (p + 1)).count (sym L q) ≤ (L.take q).count (sym L q) := (List.take_sublist_take_left (by omega)).count_le _
    omega
  · exact c
  · have : (L.take (q + 1)).count (sym L q) ≤ (L.take p).count (sym L q) := (List.take_sublist_take_left (by omega)).count_le _
    omega

theorem key_lt {L : List Nat} {p : Nat} (hp : p < L.length) : key L p < L.length := by
  have h1 := count_take_succ hp (sym L p)
  rw [if_pos rfl] at h1
  have h3 : (L.take (p + 1)).count (sym L p) ≤ L.count (sym L p) := (List.take_sublist _ _).count_le _
  have := smaller_add_count_le_length L (sym L p)
  unfold key
  omega

end Sdsl.Csa.Gmr
