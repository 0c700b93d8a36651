/-
  Properties of the Elias-Fano bit vector `sd_vector` (C25).
-/
import Verif.SdQuery

namespace Sdsl.Props

open Sdsl Sdsl.Spec Sdsl.Bits Sdsl.IntVec

/-- The sd_vector `b` answers every query in range like the bit sequence `f 0, ..., f (n-1)`: size, `operator[]`, `get_int`,
    `rank_support_sd<0/1>`, `select_support_sd<0/1>`. In particular none of the queries is undefined. -/
def SdAnswers (b : Sd.Sd) (n : Nat) (f : Nat → Bool) : Prop :=
  b.size = n ∧
  (∀ i, i < n → Sd.access b i = some (f i)) ∧
  (∀ idx len, 1 ≤ len → len ≤ 64 → idx + len ≤ n →
    Sd.getInt b idx len = some (BitVec.ofNat 64 (bitsVal (fun k => f (idx + k)) len))) ∧
  (∀ tb i, i ≤ n → Sd.rank tb b i = some (countTrue (fun q => f q == tb) i)) ∧
  (∀ tb i, 1 ≤ i → i ≤ countTrue (fun q => f q == tb) n →
    ∃ p, Sd.select tb b i = some p ∧ IsSelect (fun q => f q == tb) n i p)

private theorem answers {xs : List Nat} {n : Nat} {b : Sd.Sd} (h : Sd.Ok xs n b) (hp : xs.Pairwise (· < ·))
    (hx : ∀ x, x ∈ xs → x < n) (hn : n < 2 ^ 64) : SdAnswers b n (fun q => decide (q ∈ xs)) := by
  refine ⟨h.size, fun i hi => Sd.access_ok h hp hn hi, fun idx len h1 h2 h3 => Sd.getInt_ok h hp hx hn h1 h2 h3,
    fun tb i hi => Sd.rank_ok h hp hn tb hi, fun tb i h1 h2 => ?_⟩
  have hcut : Sd.Cut xs.length (fun j => Sd.X xs j < n) xs.length :=
    ⟨Nat.le_refl _, fun j hj => hx _ (Sd.X_mem hj), fun j hj1 hj2 => by omega⟩
  have hc := Sd.count_mem hp hcut
  rw [Sd.count_tb, hc] at h2
  cases tb
  · have := Sd.length_le_of_increasing hp hx
    exact Sd.select0_ok h hp hx hn h1 (by rw [if_neg (by decide)] at h2; omega)
  · exact Sd.select_one_ok h hp hx hn h1 (by rw [if_pos rfl] at h2; omega)

private theorem answers_congr {b : Sd.Sd} {n : Nat} {f g : Nat → Bool} (h : ∀ i, i < n → f i = g i) (ha : SdAnswers b n f) :
    SdAnswers b n g := by
  obtain ⟨h0, h1, h2, h3, h4⟩ := ha
  have hc : ∀ tb i, i ≤ n → countTrue (fun q => f q == tb) i = countTrue (fun q => g q == tb) i :=
    fun tb i hi => countTrue_congr (fun q hq => by rw [h q (by omega)])
  refine ⟨h0, fun i hi => by rw [h1 i hi, h i hi], fun idx len l1 l2 l3 => ?_, fun tb i hi => by rw [h3 tb i hi, hc tb i hi], fun tb i l1 l2 => ?_⟩
  · rw [h2 idx len l1 l2 l3, bitsVal_congr (fun k hk => h (idx + k) (by omega))]
  · obtain ⟨p, e, p1, p2, p3⟩ := h4 tb i l1 (by rw [hc tb n (Nat.le_refl _)]; exact l2)
    exact ⟨p, e, p1, by show (g p == tb) = true; rw [← h p p1]; exact p2, by rw [← hc tb p (by omega)]; exact p3⟩

/-- C25, construction from a bit vector: succeeds whatever the unused bits of the last word hold, and all queries answer like
    the bit vector. (A bit vector of `2^62` bits would occupy half an exabyte.) -/
theorem C25_from_bit_vector (v : IntVec) (hv : v.WF) (hs : v.size < 2 ^ 62) :
    ∃ b, Sd.ofBitVector v = some b ∧ SdAnswers b v.size (bitAt v.data) := by
  obtain ⟨b, e, h⟩ := Sd.ofBitVector_ok hv.fit hs
  refine ⟨b, e, answers_congr (fun i hi => ?_) (answers h (Sd.ones_pairwise _ _ _) (fun x hx => (Sd.mem_ones.1 hx).2.1) (by omega))⟩
  rw [Bool.eq_iff_iff, decide_eq_true_iff, Sd.mem_ones]
  exact ⟨fun h => h.2.2, fun h => ⟨Nat.zero_le _, hi, h⟩⟩

theorem sd_isSorted_of_increasing : ∀ xs : List Nat, xs.Pairwise (· < ·) → Sd.isSorted xs = true
  | [], _ => rfl
  | [_], _ => rfl
  | x :: y :: l, h => by
    rw [Sd.isSorted, sd_isSorted_of_increasing (y :: l) (List.Pairwise.of_cons h), Bool.and_true, decide_eq_true_iff]
    exact Nat.le_of_lt (List.rel_of_pairwise_cons h (by simp))

theorem sd_le_getLast : ∀ (xs : List Nat), xs.Pairwise (· < ·) → ∀ l, xs.getLast? = some l → ∀ x, x ∈ xs → x ≤ l
  | [], _, _, h, _, _ => by cases h
  | [a], _, l, h, x, hx => by
    simp at h hx; omega
  | a :: c :: r, hp, l, h, x, hx => by
    rw [List.getLast?_cons_cons] at h
    have h1 := sd_le_getLast (c :: r) hp.of_cons l h
    rcases List.mem_cons.1 hx with e | e
    · have h2 := List.rel_of_pairwise_cons hp (show c ∈ c :: r by simp)
      have := h1 c (by simp)
      omega
    · exact h1 x e

/-- C25, construction from a range of strictly increasing positions: the vector has its ones exactly at the given positions
    and size "last position + 1". Missing from the full claim: the empty range (`C25_empty_range`) and the position `2^64-1`
    (`C25_max_position`). -/
theorem C25_from_sequence_partial (xs : List Nat) (last : Nat) (hl : xs.getLast? = some last) (hp : xs.Pairwise (· < ·))
    (hlast : last < 2 ^ 64 - 1) (hm : xs.length < 2 ^ 62) :
    ∃ b, Sd.ofSorted xs = some (.ok b) ∧ SdAnswers b (last + 1) (fun q => decide (q ∈ xs)) := by
  have hx : ∀ x, x ∈ xs → x < last + 1 := fun x hx => Nat.lt_succ_of_le (sd_le_getLast xs hp last hl x hx)
  obtain ⟨logm, wl, s0, s, e1, e2, e3, _, hok⟩ := Sd.build_ok (k := 8) (n := last + 1) (xs := xs) (by omega) (by omega) hp hx hm
  refine ⟨_, ?_, answers hok hp hx (by omega)⟩
  unfold Sd.ofSorted
  rw [hl]
  dsimp only
  rw [if_pos (sd_isSorted_of_increasing xs hp), Sd.add64_of_lt (by omega), e1, sbind]
  dsimp only
  rw [e2, sbind, e3, sbind]
  rfl

/-- C25: the range constructor rejects ranges that are not sorted. -/
theorem C25_unsorted_throws (xs : List Nat) (i j : Nat) (hij : i < j) (hj : j < xs.length) (h : xs[j] < xs[i]) :
    ∃ msg, Sd.ofSorted xs = some (.error msg) := by
  have key : ∀ (l : List Nat) (i j : Nat) (hij : i < j) (hj : j < l.length), Sd.isSorted l = true → l[i] ≤ l[j] := by
    intro l
    induction l with
    | nil => intro i j _ hj; simp at hj
    | cons a t ih =>
      intro i j hij hj hs
      cases t with
      | nil => simp at hj; omega
      | cons c r =>
        rw [Sd.isSorted, Bool.and_eq_true, decide_eq_true_iff] at hs
        cases j with
        | zero => omega
        | succ j =>
          cases i with
          | succ i => exact ih i j (by omega) (by simpa using hj) hs.2
          | zero =>
            cases j with
            | zero => exact hs.1
            | succ j =>
              have := ih 0 (j + 1) (by omega) (by simpa using hj) hs.2
              simp only [List.getElem_cons_zero, List.getElem_cons_succ] at this ⊢
              omega
  refine ⟨"sd_vector: source list is not sorted.", ?_⟩
  unfold Sd.ofSorted
  cases hl : xs.getLast? with
  | none => rw [List.getLast?_eq_none_iff] at hl; subst hl; simp at hj
  | some l =>
    dsimp only
    rw [if_neg (fun hs => by have := key xs i j hij hj hs; omega)]

theorem sd_setAll_eq : ∀ (xs : List Nat) (b : Sd.Builder) (s : Sd.St), (∀ x, x ∈ xs → b.tail ≤ x ∧ x < b.size) → b.size < 2 ^ 64 →
    xs.Pairwise (· < ·) → b.st.mm + xs.length ≤ b.capacity → Sd.pushAll b.wl b.st xs = some s →
    ∃ t, b.setAll xs = some ⟨b.size, b.capacity, b.wl, t, s⟩
  | [], b, s, _, _, _, _, h => by
    rw [Sd.pushAll] at h
    obtain rfl := Option.some.inj h
    exact ⟨b.tail, rfl⟩
  | x :: xs, b, s, hx, hb, hp, hc, h => by
    rw [Sd.pushAll] at h
    cases e : Sd.push b.wl b.st x with
    | none => rw [e] at h; cases h
    | some s1 =>
      rw [e, sbind] at h
      have hx0 := hx x (by simp)
      have hmm : s1.mm = b.st.mm + 1 := by
        unfold Sd.push at e
        rcases hsh : Sd.shr64 x b.wl with _ | a
        · rw [hsh] at e; cases e
        · rw [hsh, sbind] at e
          dsimp only at e
          rcases hlo : b.st.low.set b.st.mm x with _ | lo'
          · rw [hlo] at e; cases e
          · rw [hlo, sbind] at e
            rcases hhi : Bv.set b.st.high (Sd.add64 b.st.highpos (Sd.sub64 a b.st.lastHigh)) true with _ | hi'
            · rw [hhi] at e; cases e
            · rw [hhi, sbind] at e
              obtain rfl := Option.some.inj e
              rfl
      rw [List.length_cons] at hc
      have hset : b.set x = some { b with st := s1, tail := Sd.add64 x 1 } := by
        unfold Sd.Builder.set
        rw [if_pos ⟨hx0.1, hx0.2, by omega⟩, e, sbind]; rfl
      obtain ⟨t, et⟩ := sd_setAll_eq xs { b with st := s1, tail := Sd.add64 x 1 } s
        (fun y hy => ⟨by
            show Sd.add64 x 1 ≤ y
            rw [Sd.add64_of_lt (by omega)]; exact List.rel_of_pairwise_cons hp hy, (hx y (by simp [hy])).2⟩) hb hp.of_cons
        (by show s1.mm + _ ≤ _; rw [hmm]; show _ ≤ b.capacity; omega) h
      exact ⟨t, by rw [Sd.Builder.setAll, hset, sbind]; exact et⟩

/-- C25, the builder: with `m` strictly increasing positions below `n`, no assertion fails, the result has size `n` and its
    ones exactly at the given positions; any `n < 2^64` including 0 works. -/
theorem C25_from_builder (n : Nat) (hn : n < 2 ^ 64) (xs : List Nat) (hp : xs.Pairwise (· < ·)) (hx : ∀ x, x ∈ xs → x < n)
    (hm : xs.length < 2 ^ 62) :
    ∃ b0 b1 b, Sd.Builder.new n xs.length = some (.ok b0) ∧ b0.setAll xs = some b1 ∧ Sd.ofBuilder b1 = .ok b ∧
      SdAnswers b n (fun q => decide (q ∈ xs)) := by
  obtain ⟨logm, wl, s0, s, e1, e2, e3, hmm, hok⟩ := Sd.build_ok (k := 64) (n := n) (xs := xs) (by omega) hn hp hx hm
  have hle := Sd.length_le_of_increasing hp hx
  have hmm0 : s0.mm = 0 := by
    unfold Sd.start at e2
    rcases h : Sd.shl64 1 logm with _ | a
    · rw [h] at e2; cases e2
    · rw [h, sbind] at e2; obtain rfl := Option.some.inj e2; rfl
  obtain ⟨t, et⟩ := sd_setAll_eq xs ⟨n, xs.length, wl, 0, s0⟩ s (fun x h => ⟨Nat.zero_le _, hx x h⟩) hn hp
    (by show s0.mm + _ ≤ _; rw [hmm0]; show _ ≤ xs.length; omega) e3
  refine ⟨⟨n, xs.length, wl, 0, s0⟩, _, _, ?_, et, ?_, answers hok hp hx hn⟩
  · unfold Sd.Builder.new
    rw [if_neg (by omega), e1, sbind]
    dsimp only
    rw [e2, sbind]; rfl
  · unfold Sd.ofBuilder
    rw [if_neg (by show ¬ s.mm ≠ xs.length; rw [hmm]; simp)]

/-- C25: the builder refuses more ones than bits, and an incomplete builder is refused. -/
theorem C25_builder_errors (n m : Nat) (h : m > n) (b : Sd.Builder) (hb : b.st.mm ≠ b.capacity) :
    (∃ msg, Sd.Builder.new n m = some (.error msg)) ∧ ∃ msg, Sd.ofBuilder b = .error msg := by
  refine ⟨⟨"sd_vector_builder: requested capacity is larger than vector size.", ?_⟩, ⟨"sd_vector: the builder is not full.", ?_⟩⟩
  · unfold Sd.Builder.new; rw [if_pos h]
  · unfold Sd.ofBuilder; rw [if_pos hb]

/-- C25 fails for the empty range: the constructor returns before the select supports are initialised, so that `rank(0)`, which
    should be 0, calls `select` on an empty support. -/
theorem C25_empty_range : ∃ b, Sd.ofSorted [] = some (.ok b) ∧ b.size = 0 ∧ Sd.rank true b 0 = none := ⟨_, rfl, rfl, by decide +kernel⟩

/-- C25 fails for the largest position: the size wraps around to 0 and the constructor writes outside `high`. -/
theorem C25_max_position : Sd.ofSorted [2 ^ 64 - 1] = none ∧ Sd.ofSorted [5, 2 ^ 64 - 1] = none := by
  constructor <;> decide +kernel

/-- Sorted ranges with repeated positions are accepted, but can be undefined: with four zeros, `logn - logm` wraps around. -/
theorem C25_duplicates : Sd.ofSorted [0, 0, 0, 0] = none := by decide +kernel

example : (Sd.ofSorted [3, 4, 70, 71, 500]).bind (fun r => match r with
      | .ok b => do
        let x ← Sd.select false b 69
        let r ← Sd.rank true b 71
        let w ← Sd.getInt b 60 20
        let a ← Sd.access b 70
        pure (x, r, w, a)
      | .error _ => none) = some (72, 3, 0xC00#64, true) := by decide +kernel

example : (⟨190, [0x8000000000000005#64, 0xF0F1#64, 0x2#64], 1⟩ : IntVec).WF ∧
    (Sd.ofBitVector ⟨190, [0x8000000000000005#64, 0xF0F1#64, 0xC000000000000002#64], 1⟩).bind (fun b => Sd.select true b 13) = some 129 := by
  refine ⟨⟨by decide, by decide, by decide⟩, by decide +kernel⟩

end Sdsl.Props
