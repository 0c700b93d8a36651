/-
  Lemmas about `int_vector` iterators, `operator<` and iterator loops.
-/
import Verif.IntVecOps

namespace Sdsl

open Spec Bits

namespace IntVec
namespace It

/-- Bit position an iterator designates. -/
def pos (it : It) : Int := 64 * it.word + it.off

theorem byte_masks : ∀ x : Fin 256, ((x.val &&& 0xC0 ≠ 0) ↔ 64 ≤ x.val) ∧ x.val &&& 0x3F = x.val % 64 := by
  decide +kernel

theorem and_c0 {x : Nat} (h : x < 256) : (x &&& 0xC0 ≠ 0) ↔ 64 ≤ x := (byte_masks ⟨x, h⟩).1
theorem and_3f {x : Nat} (h : x < 256) : x &&& 0x3F = x % 64 := (byte_masks ⟨x, h⟩).2

theorem next_spec {it : It} (ho : it.off < 64) (hl : it.len ≤ 64) :
    it.next.off < 64 ∧ it.next.len = it.len ∧ it.next.pos = it.pos + it.len := by
  unfold next pos
  have h1 : (it.off + it.len) % 256 = it.off + it.len := by omega
  simp only [h1]
  split
  · simp only [and_3f (show it.off + it.len < 256 by omega)]
    refine ⟨by omega, trivial, by omega⟩
  · refine ⟨by simp only; omega, rfl, by simp only; omega⟩

theorem prev_spec {it : It} (ho : it.off < 64) (hl : it.len ≤ 64) :
    it.prev.off < 64 ∧ it.prev.len = it.len ∧ it.prev.pos = it.pos - it.len := by
  unfold prev pos
  have h1 : (it.off + 256 - it.len) % 256 < 256 := by omega
  have h2 : (it.off + 256 - it.len) % 256 = if it.len ≤ it.off then it.off - it.len else it.off + 256 - it.len := by
    split <;> omega
  simp only
  split <;> rename_i hc
  · simp only [and_3f h1]
    rw [h2] at *
    split at hc
    · omega
    · rw [if_neg (by assumption)]; refine ⟨by omega, trivial, by omega⟩
  · simp only
    rw [h2] at *
    split at hc
    · rw [if_pos (by assumption)]; refine ⟨by omega, trivial, by omega⟩
    · omega

theorem addN_spec {it : It} (ho : it.off < 64) (i : Nat) :
    (it.addN i).off < 64 ∧ (it.addN i).len = it.len ∧ (it.addN i).pos = it.pos + (i * it.len : Nat) := by
  unfold addN pos
  generalize i * it.len = t
  have h1 : (it.off + t % 64) % 256 = it.off + t % 64 := by omega
  simp only [h1, and_c0 (show it.off + t % 64 < 256 by omega), and_3f (show it.off + t % 64 < 256 by omega)]
  split
  · refine ⟨by simp only; omega, rfl, by simp only; omega⟩
  · refine ⟨by simp only; omega, rfl, by simp only; omega⟩

theorem subN_spec {it : It} (ho : it.off < 64) (i : Nat) :
    (it.subN i).off < 64 ∧ (it.subN i).len = it.len ∧ (it.subN i).pos = it.pos - (i * it.len : Nat) := by
  unfold subN pos
  generalize i * it.len = t
  have h0 : (it.off + 256 - t % 64) % 256 < 256 := by omega
  have h2 : (it.off + 256 - t % 64) % 256 = if t % 64 ≤ it.off then it.off - t % 64 else it.off + 256 - t % 64 := by
    split <;> omega
  simp only [and_c0 h0, and_3f h0]
  split <;> rename_i hc
  · simp only
    rw [h2] at *
    split at hc
    · omega
    · rw [if_neg (by assumption)]; refine ⟨by omega, trivial, by omega⟩
  · simp only
    rw [h2] at *
    split at hc
    · rw [if_pos (by assumption)]; refine ⟨by omega, trivial, by omega⟩
    · omega

theorem add_spec {it : It} (ho : it.off < 64) (i : Int) :
    (it.add i).off < 64 ∧ (it.add i).len = it.len ∧ (it.add i).pos = it.pos + i * it.len := by
  unfold add
  split <;> rename_i h
  · obtain ⟨h1, h2, h3⟩ := subN_spec ho (-i).toNat
    refine ⟨h1, h2, ?_⟩
    rw [h3, Int.natCast_mul, Int.toNat_of_nonneg (by omega), Int.neg_mul]; omega
  · obtain ⟨h1, h2, h3⟩ := addN_spec ho i.toNat
    refine ⟨h1, h2, ?_⟩
    rw [h3, Int.natCast_mul, Int.toNat_of_nonneg (by omega)]

theorem sub_spec {it : It} (ho : it.off < 64) (i : Int) :
    (it.sub i).off < 64 ∧ (it.sub i).len = it.len ∧ (it.sub i).pos = it.pos - i * it.len := by
  unfold sub
  split <;> rename_i h
  · obtain ⟨h1, h2, h3⟩ := addN_spec ho (-i).toNat
    refine ⟨h1, h2, ?_⟩
    rw [h3, Int.natCast_mul, Int.toNat_of_nonneg (by omega), Int.neg_mul]; omega
  · obtain ⟨h1, h2, h3⟩ := subN_spec ho i.toNat
    refine ⟨h1, h2, ?_⟩
    rw [h3, Int.natCast_mul, Int.toNat_of_nonneg (by omega)]

theorem eq_spec {a b : It} (ha : a.off < 64) (hb : b.off < 64) : a.eq b = decide (a.pos = b.pos) := by
  unfold eq pos
  rw [Bool.eq_iff_iff]
  simp only [Bool.and_eq_true, beq_iff_eq, decide_eq_true_eq]
  omega

theorem lt_spec {a b : It} (ha : a.off < 64) (hb : b.off < 64) : a.lt b = decide (a.pos < b.pos) := by
  unfold lt pos
  split
  · rw [decide_eq_decide]; omega
  · rw [decide_eq_decide]; omega

theorem diff_spec (a b : It) : a.diff b = Int.tdiv (a.pos - b.pos) a.len := by
  unfold diff pos
  congr 1; omega

theorem deref_spec {m : Mem} {it : It} {p : Nat} (ho : it.off < 64) (hl : it.len ≤ 64) (hl1 : 1 ≤ it.len)
    (hp : it.pos = p) (hfit : p + it.len ≤ 64 * m.length) : it.deref m = some (BitVec.ofNat 64 (field m p it.len)) := by
  unfold pos at hp
  have hw : 64 * it.word.toNat + it.off = p := by omega
  have hr := readInt_eq (m := m) (p := it.word.toNat) (off := it.off) (len := it.len) ho hl (by omega) (by omega)
  rw [hw] at hr
  unfold deref
  rw [if_neg (by omega)]
  unfold readInt at hr
  rw [ld_of_lt (show it.word.toNat < m.length by omega), Option.bind_eq_bind, Option.bind_some, shr_of_lt ho] at hr ⊢
  rw [Option.bind_some] at hr
  by_cases hc : it.off + it.len ≤ 64
  · rw [if_neg (by omega)] at hr
    rw [if_pos hc]
    exact hr
  · rw [if_pos (by omega)] at hr
    rw [if_neg hc, Option.bind_some, shr_of_lt ho, Option.bind_some]
    exact hr

theorem store_spec {m : Mem} {it : It} {p : Nat} {x : Word} (ho : it.off < 64) (hl : it.len ≤ 64) (hl1 : 1 ≤ it.len)
    (hp : it.pos = p) (hfit : p + it.len ≤ 64 * m.length) : ∃ d, it.store m x = some d ∧ Written m d p it.len x := by
  unfold pos at hp
  have hw : 64 * it.word.toNat + it.off = p := by omega
  unfold store
  rw [if_neg (by omega), ← hw]
  exact writeInt_eq ho hl (by omega) (by omega)

end It

theorem itAt_spec (v : IntVec) (b : Nat) : (v.itAt b).off < 64 ∧ (v.itAt b).len = v.width ∧ (v.itAt b).pos = b := by
  unfold itAt It.pos
  exact ⟨by simp only; omega, rfl, by simp only; omega⟩

/-- The comparison loop, started at element `i`. -/
theorem lessLoop_spec {v w : IntVec} (hv : v.WF) (hw : w.WF) (lt : Word → Word → Bool) {n : Nat}
    (hn : n ≤ v.size / v.width) (hn' : n ≤ w.size / w.width) {e : It} (heo : e.off < 64) (hep : e.pos = (n * v.width : Nat)) :
    ∀ (f i : Nat) (it itv : It), i ≤ n → n - i < f → it.off < 64 → it.len = v.width → it.pos = (i * v.width : Nat) →
      itv.off < 64 → itv.len = w.width → itv.pos = (i * w.width : Nat) →
      ∃ r, lessLoop v.data w.data lt f it e itv = some r ∧
        ((r = none ∧ ∀ j, i ≤ j → j < n → v.elem j = w.elem j) ∨
         (∃ k, i ≤ k ∧ k < n ∧ (∀ j, i ≤ j → j < k → v.elem j = w.elem j) ∧ v.elem k ≠ w.elem k ∧
            r = some (lt (BitVec.ofNat 64 (v.elem k)) (BitVec.ofNat 64 (w.elem k))))) := by
  intro f
  induction f with
  | zero => intro i it itv h1 h2; omega
  | succ f ih =>
    intro i it itv hi hf ho hl hp ho' hl' hp'
    simp only [lessLoop]
    rw [It.eq_spec ho heo, hp, hep]
    have hw1 := hv.w1
    by_cases hin : i = n
    · subst hin
      rw [if_pos (by simp)]
      exact ⟨none, rfl, Or.inl ⟨rfl, fun j h1 h2 => by omega⟩⟩
    · have hlt : i * v.width < n * v.width := Nat.mul_lt_mul_of_pos_right (by omega) (by omega)
      rw [if_neg (by simp; omega)]
      have hi1 : i < v.size / v.width := by omega
      have hi2 : i < w.size / w.width := by omega
      have b1 := hv.end_le hi1
      have b2 := hw.end_le hi2
      have b3 := hv.bits_le
      have b4 := hw.bits_le
      have d1 := It.deref_spec (m := v.data) ho (by rw [hl]; exact hv.w64) (by rw [hl]; exact hv.w1) hp (by rw [hl]; omega)
      have d2 := It.deref_spec (m := w.data) ho' (by rw [hl']; exact hw.w64) (by rw [hl']; exact hw.w1) hp' (by rw [hl']; omega)
      rw [hl] at d1
      rw [hl'] at d2
      rw [d1, d2, Option.bind_eq_bind, Option.bind_some, Option.bind_some]
      have ev : field v.data (i * v.width) v.width = v.elem i := rfl
      have ew : field w.data (i * w.width) w.width = w.elem i := rfl
      rw [ev, ew]
      by_cases hx : v.elem i = w.elem i
      · rw [if_pos (by rw [hx])]
        obtain ⟨n1, n2, n3⟩ := It.next_spec (it := it) ho (by rw [hl]; exact hv.w64)
        obtain ⟨n1', n2', n3'⟩ := It.next_spec (it := itv) ho' (by rw [hl']; exact hw.w64)
        obtain ⟨r, hr, hcase⟩ := ih (i + 1) it.next itv.next (by omega) (by omega) n1 (n2.trans hl)
          (by rw [n3, hp, hl, Nat.add_mul]; omega) n1' (n2'.trans hl') (by rw [n3', hp', hl', Nat.add_mul]; omega)
        refine ⟨r, hr, ?_⟩
        rcases hcase with ⟨h1, h2⟩ | ⟨k, h1, h2, h3, h4, h5⟩
        · left
          refine ⟨h1, fun j h3 h4 => ?_⟩
          by_cases e : j = i
          · subst e; exact hx
          · exact h2 j (by omega) h4
        · right
          refine ⟨k, by omega, h2, fun j h6 h7 => ?_, h4, h5⟩
          by_cases e : j = i
          · subst e; exact hx
          · exact h3 j (by omega) h7
      · rw [if_neg]
        · refine ⟨_, rfl, Or.inr ⟨i, by omega, by omega, fun j h1 h2 => by omega, hx, rfl⟩⟩
        · intro h
          have := congrArg BitVec.toNat h
          rw [toNat_ofNat_elem hv, toNat_ofNat_elem hw] at this
          exact hx this

theorem ult_elem {v w : IntVec} (hv : v.WF) (hw : w.WF) (i j : Nat) :
    (BitVec.ofNat 64 (v.elem i)).ult (BitVec.ofNat 64 (w.elem j)) = decide (v.elem i < w.elem j) := by
  rw [BitVec.ult, toNat_ofNat_elem hv, toNat_ofNat_elem hw]

/-- Position-wise description of the lexicographic order used by the documentation of `operator<`. -/
theorem lex_of_diff {a b : List Nat} {k : Nat} (hk : k < a.length) (hk' : k < b.length)
    (he : ∀ j, j < k → a[j]? = b[j]?) (hlt : a[k] < b[k]) : a < b := by
  induction k generalizing a b with
  | zero =>
    cases a with
    | nil => simp at hk
    | cons x a => cases b with
      | nil => simp at hk'
      | cons y b => exact List.cons_lt_cons_iff.mpr (Or.inl (by simpa using hlt))
  | succ k ih =>
    cases a with
    | nil => simp at hk
    | cons x a => cases b with
      | nil => simp at hk'
      | cons y b =>
        have h0 := he 0 (by omega)
        simp at h0
        refine List.cons_lt_cons_iff.mpr (Or.inr ⟨h0, ih (by simpa using hk) (by simpa using hk') ?_ (by simpa using hlt)⟩)
        intro j hj
        have := he (j + 1) (by omega)
        simpa using this

theorem lex_of_prefix {a b : List Nat} (he : ∀ j, j < a.length → j < b.length → a[j]? = b[j]?) :
    a < b ↔ a.length < b.length := by
  induction a generalizing b with
  | nil => cases b <;> simp
  | cons x a ih =>
    cases b with
    | nil => simp
    | cons y b =>
      have h0 := he 0 (by simp) (by simp)
      simp at h0
      rw [List.cons_lt_cons_iff, ih (b := b)]
      · subst h0; simp
      · intro j h1 h2
        have := he (j + 1) (by simpa using h1) (by simpa using h2)
        simpa using this

theorem elems_getElem {v : IntVec} {i : Nat} (h : i < v.elems.length) : v.elems[i] = v.elem i := by
  have := v.elems_get? i
  rw [List.getElem?_eq_getElem h, if_pos (by rwa [elems_length] at h)] at this
  exact Option.some.inj this

theorem less_eq {v w : IntVec} (hv : v.WF) (hw : w.WF) : v.less w = some (decide (v.elems < w.elems)) := by
  unfold less
  generalize hn : (if v.numElems > w.numElems then w.numElems else v.numElems) = n
  have hnv : n ≤ v.size / v.width := by rw [← hn]; unfold numElems; split <;> omega
  have hnw : n ≤ w.size / w.width := by rw [← hn]; unfold numElems; split <;> omega
  have hmin : n = v.size / v.width ∨ n = w.size / w.width := by rw [← hn]; unfold numElems; split <;> omega
  obtain ⟨b1, b2, b3⟩ := v.itAt_spec 0
  obtain ⟨c1, c2, c3⟩ := w.itAt_spec 0
  obtain ⟨e1, e2, e3⟩ := It.addN_spec b1 n
  rw [b2, b3] at e3
  obtain ⟨r, hr, hcase⟩ := lessLoop_spec hv hw (fun x y => x.ult y) hnv hnw (e := (v.itAt 0).addN n) e1
    (by rw [e3]; omega) (n + 1) 0 (v.itAt 0) (w.itAt 0) (by omega) (by omega) b1 b2 (by rw [b3]; simp) c1 c2 (by rw [c3]; simp)
  unfold itBegin
  simp only [hr]
  rcases hcase with ⟨rfl, h2⟩ | ⟨k, h1, h2, h3, h4, rfl⟩
  · show some (decide (v.numElems < w.numElems)) = _
    congr 1
    rw [decide_eq_decide]
    rw [lex_of_prefix]
    · rw [elems_length, elems_length]; rfl
    · intro j h5 h6
      rw [elems_length] at h5 h6
      rw [elems_get?, elems_get?, if_pos h5, if_pos h6, h2 j (by omega) (by omega)]
  · show some _ = _
    congr 1
    simp only [ult_elem hv hw]
    have hk1 : k < v.elems.length := by rw [elems_length]; omega
    have hk2 : k < w.elems.length := by rw [elems_length]; omega
    have he : ∀ j, j < k → v.elems[j]? = w.elems[j]? := fun j hj => by
      rw [elems_get?, elems_get?, if_pos (by omega), if_pos (by omega), h3 j (by omega) hj]
    rw [decide_eq_decide]
    constructor
    · intro h; exact lex_of_diff hk1 hk2 he (by rwa [elems_getElem, elems_getElem])
    · intro h
      apply Nat.lt_of_not_le
      intro h5
      have : w.elems < v.elems := lex_of_diff hk2 hk1 (fun j hj => (he j hj).symm)
        (by rw [elems_getElem, elems_getElem]; omega)
      exact absurd (List.lt_trans h this) (List.lt_irrefl _)

theorem greater_eq {v w : IntVec} (hv : v.WF) (hw : w.WF) : v.greater w = some (decide (w.elems < v.elems)) := by
  unfold greater
  generalize hn : (if v.numElems > w.numElems then w.numElems else v.numElems) = n
  have hnv : n ≤ v.size / v.width := by rw [← hn]; unfold numElems; split <;> omega
  have hnw : n ≤ w.size / w.width := by rw [← hn]; unfold numElems; split <;> omega
  have hmin : n = v.size / v.width ∨ n = w.size / w.width := by rw [← hn]; unfold numElems; split <;> omega
  obtain ⟨b1, b2, b3⟩ := v.itAt_spec 0
  obtain ⟨c1, c2, c3⟩ := w.itAt_spec 0
  obtain ⟨e1, e2, e3⟩ := It.addN_spec b1 n
  rw [b2, b3] at e3
  obtain ⟨r, hr, hcase⟩ := lessLoop_spec hv hw (fun x y => y.ult x) hnv hnw (e := (v.itAt 0).addN n) e1
    (by rw [e3]; omega) (n + 1) 0 (v.itAt 0) (w.itAt 0) (by omega) (by omega) b1 b2 (by rw [b3]; simp) c1 c2 (by rw [c3]; simp)
  unfold itBegin
  simp only [hr]
  rcases hcase with ⟨rfl, h2⟩ | ⟨k, h1, h2, h3, h4, rfl⟩
  · show some (decide (v.numElems > w.numElems)) = _
    congr 1
    rw [decide_eq_decide]
    rw [lex_of_prefix]
    · rw [elems_length, elems_length]; rfl
    · intro j h5 h6
      rw [elems_length] at h5 h6
      rw [elems_get?, elems_get?, if_pos h5, if_pos h6, h2 j (by omega) (by omega)]
  · show some _ = _
    congr 1
    simp only [ult_elem hw hv]
    have hk1 : k < v.elems.length := by rw [elems_length]; omega
    have hk2 : k < w.elems.length := by rw [elems_length]; omega
    have he : ∀ j, j < k → v.elems[j]? = w.elems[j]? := fun j hj => by
      rw [elems_get?, elems_get?, if_pos (by omega), if_pos (by omega), h3 j (by omega) hj]
    rw [decide_eq_decide]
    constructor
    · intro h; exact lex_of_diff hk2 hk1 (fun j hj => (he j hj).symm) (by rwa [elems_getElem, elems_getElem])
    · intro h
      apply Nat.lt_of_not_le
      intro h5
      have : v.elems < w.elems := lex_of_diff hk1 hk2 he
        (by rw [elems_getElem, elems_getElem]; omega)
      exact absurd (List.lt_trans h this) (List.lt_irrefl _)

end IntVec
end Sdsl
