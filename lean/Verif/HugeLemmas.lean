/-
  The heap of `hugepage_allocator` as a list of blocks: the boundary tags tile `[m_base, m_top)`, and the free set is the set of free
  blocks.
-/
import Verif.HugeAlloc

namespace Sdsl.Huge

/-- A block: total size in bytes, free flag. -/
abbrev Blk := Nat × Bool

def tagOf (b : Blk) : Nat := b.1 + if b.2 then 1 else 0

def span : List Blk → Nat
  | [] => 0
  | b :: bs => b.1 + span bs

/-- Header and footer of every block carry its tag. -/
def Tags (mem : Nat → Nat) : Nat → List Blk → Prop
  | _, [] => True
  | o, b :: bs => mem o = tagOf b ∧ mem (o + b.1 - 8) = tagOf b ∧ Tags mem (o + b.1) bs

/-- Keys and addresses of the free blocks. -/
def frees : Nat → List Blk → List (Nat × Nat)
  | _, [] => []
  | o, b :: bs => if b.2 then (b.1 + 1, o) :: frees (o + b.1) bs else frees (o + b.1) bs

/-- Addresses and sizes of the used blocks. -/
def used : Nat → List Blk → List (Nat × Nat)
  | _, [] => []
  | o, b :: bs => if b.2 then used (o + b.1) bs else (o, b.1) :: used (o + b.1) bs

def Good (bs : List Blk) : Prop := ∀ b ∈ bs, b.1 % 8 = 0 ∧ 16 ≤ b.1

structure Inv (h : Heap) (bs : List Blk) : Prop where
  good : Good bs
  tags : Tags h.mem 0 bs
  top : h.top = span bs
  le : h.top ≤ h.total
  lt : h.total < 2 ^ 62
  perm : h.free.Perm (frees 0 bs)

/-- As `Inv`, with a block of size `s` between `L` and `R` that is not in the free set and whose header has the size `s`. -/
structure SInv (h : Heap) (L : List Blk) (s : Nat) (R : List Blk) : Prop where
  goodL : Good L
  goodR : Good R
  s8 : s % 8 = 0
  s16 : 16 ≤ s
  tagsL : Tags h.mem 0 L
  tagsR : Tags h.mem (span L + s) R
  hdr : unmask (h.mem (span L)) = s
  top : h.top = span L + s + span R
  le : h.top ≤ h.total
  lt : h.total < 2 ^ 62
  perm : h.free.Perm (frees 0 L ++ frees (span L + s) R)

theorem span_append (a b : List Blk) : span (a ++ b) = span a + span b := by
  induction a with
  | nil => simp [span]
  | cons x xs ih => simp only [List.cons_append, span, ih]; omega

theorem used_append (a b : List Blk) (o : Nat) : used o (a ++ b) = used o a ++ used (o + span a) b := by
  induction a generalizing o with
  | nil => simp [span, used]
  | cons x xs ih =>
    simp only [List.cons_append, span, used, ih, Nat.add_assoc]
    split <;> simp

theorem frees_append (a b : List Blk) (o : Nat) : frees o (a ++ b) = frees o a ++ frees (o + span a) b := by
  induction a generalizing o with
  | nil => simp [span, frees]
  | cons x xs ih =>
    simp only [List.cons_append, span, frees, ih, Nat.add_assoc]
    split <;> simp

theorem tags_append (m : Nat → Nat) (a b : List Blk) (o : Nat) : Tags m o (a ++ b) ↔ Tags m o a ∧ Tags m (o + span a) b := by
  induction a generalizing o with
  | nil => simp [span, Tags]
  | cons x xs ih =>
    simp only [List.cons_append, span, Tags, ih, Nat.add_assoc, and_assoc]

theorem good_append {a b : List Blk} : Good (a ++ b) ↔ Good a ∧ Good b := by
  simp only [Good, List.mem_append]
  constructor
  · intro h; exact ⟨fun x hx => h x (Or.inl hx), fun x hx => h x (Or.inr hx)⟩
  · rintro ⟨h1, h2⟩ x (hx | hx)
    · exact h1 x hx
    · exact h2 x hx

theorem good_cons {x : Blk} {b : List Blk} : Good (x :: b) ↔ (x.1 % 8 = 0 ∧ 16 ≤ x.1) ∧ Good b := by
  simp only [Good, List.mem_cons, forall_eq_or_imp]

theorem span_mod {bs : List Blk} (h : Good bs) : span bs % 8 = 0 := by
  induction bs with
  | nil => rfl
  | cons x xs ih =>
    rw [good_cons] at h
    have := ih h.2
    simp only [span]; omega

theorem tags_frame {m m' : Nat → Nat} {bs : List Blk} {o : Nat} (hg : Good bs) (ht : Tags m o bs)
    (he : ∀ x, o ≤ x → x < o + span bs → m' x = m x) : Tags m' o bs := by
  induction bs generalizing o with
  | nil => trivial
  | cons x xs ih =>
    rw [good_cons] at hg
    simp only [span] at he
    obtain ⟨h1, h2, h3⟩ := ht
    refine ⟨?_, ?_, ih hg.2 h3 fun y hy1 hy2 => he y (by omega) (by omega)⟩
    · rw [he _ (by omega) (by omega)]; exact h1
    · rw [he _ (by omega) (by omega)]; exact h2

theorem mem_used {bs : List Blk} {o a s : Nat} (h : (a, s) ∈ used o bs) :
    ∃ L R, bs = L ++ (s, false) :: R ∧ a = o + span L := by
  induction bs generalizing o with
  | nil => simp [used] at h
  | cons x xs ih =>
    obtain ⟨t, f⟩ := x
    simp only [used] at h
    cases f with
    | true =>
      simp only [if_true] at h
      obtain ⟨L, R, h1, h2⟩ := ih h
      exact ⟨(t, true) :: L, R, by rw [h1]; rfl, by simp only [span]; omega⟩
    | false =>
      simp only [Bool.false_eq_true, if_false, List.mem_cons, Prod.mk.injEq] at h
      rcases h with ⟨h1, h2⟩ | h
      · exact ⟨[], xs, by rw [h2]; rfl, by simp [span, h1]⟩
      · obtain ⟨L, R, h1, h2⟩ := ih h
        exact ⟨(t, false) :: L, R, by rw [h1]; rfl, by simp only [span]; omega⟩

theorem mem_frees {bs : List Blk} {o a k : Nat} (h : (k, a) ∈ frees o bs) :
    ∃ L R s, bs = L ++ (s, true) :: R ∧ a = o + span L ∧ k = s + 1 := by
  induction bs generalizing o with
  | nil => simp [frees] at h
  | cons x xs ih =>
    obtain ⟨t, f⟩ := x
    simp only [frees] at h
    cases f with
    | false =>
      simp only [Bool.false_eq_true, if_false] at h
      obtain ⟨L, R, s, h1, h2, h3⟩ := ih h
      exact ⟨(t, false) :: L, R, s, by rw [h1]; rfl, by simp only [span]; omega, h3⟩
    | true =>
      simp only [if_true, List.mem_cons, Prod.mk.injEq] at h
      rcases h with ⟨h1, h2⟩ | h
      · exact ⟨[], xs, t, rfl, by simp [span, h2], h1⟩
      · obtain ⟨L, R, s, h1, h2, h3⟩ := ih h
        exact ⟨(t, true) :: L, R, s, by rw [h1]; rfl, by simp only [span]; omega, h3⟩

/-- A used block lies in the span. -/
theorem used_bound {bs : List Blk} {o a s : Nat} (h : (a, s) ∈ used o bs) : o ≤ a ∧ a + s ≤ o + span bs := by
  obtain ⟨L, R, h1, h2⟩ := mem_used h
  rw [h1, span_append]; simp only [span]; omega

/-- The used blocks are in ascending order and disjoint. -/
theorem used_pairwise (bs : List Blk) (o : Nat) : (used o bs).Pairwise fun x y => x.1 + x.2 ≤ y.1 := by
  induction bs generalizing o with
  | nil => exact List.Pairwise.nil
  | cons x xs ih =>
    simp only [used]
    split
    · exact ih _
    · refine List.pairwise_cons.2 ⟨fun y hy => ?_, ih _⟩
      exact (used_bound (a := y.1) (s := y.2) hy).1

theorem used_pos {bs : List Blk} (hg : Good bs) {o a s : Nat} (h : (a, s) ∈ used o bs) : 16 ≤ s ∧ s % 8 = 0 := by
  obtain ⟨L, R, h1, h2⟩ := mem_used h
  have := hg (s, false) (by rw [h1]; simp)
  exact ⟨this.2, this.1⟩

theorem used_nodup {bs : List Blk} (hg : Good bs) (o : Nat) : ((used o bs).map Prod.fst).Nodup := by
  rw [List.nodup_iff_pairwise_ne, List.pairwise_map]
  have h2 : (used o bs).Pairwise fun x y => (x ∈ used o bs ∧ x.1 + x.2 ≤ y.1) :=
    List.Pairwise.imp_of_mem (fun hx _ h => ⟨hx, h⟩) (used_pairwise bs o)
  refine List.Pairwise.imp (fun {x y} h => ?_) h2
  have := used_pos hg (a := x.1) (s := x.2) h.1
  omega

/-! ### Loads, stores -/

/-- Memory after `block_update`. -/
def upd (mem : Nat → Nat) (b s v : Nat) : Nat → Nat := fun x => if x = b + s - 8 then v else if x = b then v else mem x

theorem ld_eq {h : Heap} {a : Nat} (h8 : a % 8 = 0) (hle : a + 8 ≤ h.total) : ld h a = some (h.mem a) := if_pos ⟨h8, hle⟩

theorem blockUpdate_eq {h : Heap} {b v s : Nat} (hv : unmask v = s) (hb : b % 8 = 0) (s8 : s % 8 = 0) (s16 : 16 ≤ s)
    (hle : b + s ≤ h.total) : blockUpdate h b v = some { h with mem := upd h.mem b s v } := by
  unfold blockUpdate st
  rw [if_pos ⟨hb, by omega⟩, sbind, if_pos ⟨by rw [hv]; omega, by rw [hv]; show b + s - 8 + 8 ≤ h.total; omega⟩]
  simp only [hv]
  rfl

theorem upd_frame {mem : Nat → Nat} {b s v x : Nat} (h16 : 16 ≤ s) (hx : x < b ∨ b + s ≤ x) : upd mem b s v x = mem x := by
  unfold upd
  rw [if_neg (by omega), if_neg (by omega)]

theorem upd_data {mem : Nat → Nat} {b s v x : Nat} (h1 : b + 8 ≤ x) (h2 : x + 8 < b + s ∨ (x + 8 ≤ b + s ∧ x ≠ b + s - 8)) :
    upd mem b s v x = mem x := by
  unfold upd
  rw [if_neg (by omega), if_neg (by omega)]

theorem upd_head {mem : Nat → Nat} {b s v : Nat} : upd mem b s v b = v := by
  unfold upd; split <;> simp

theorem upd_foot {mem : Nat → Nat} {b s v : Nat} : upd mem b s v (b + s - 8) = v := by
  unfold upd; simp

theorem unmask_even {s : Nat} (h : s % 8 = 0) : unmask s = s := by unfold unmask; omega
theorem unmask_odd {s : Nat} (h : s % 8 = 0) : unmask (s + 1) = s := by unfold unmask; omega
theorem unmask_tag {b : Blk} (h : b.1 % 8 = 0) : unmask (tagOf b) = b.1 := by
  unfold tagOf; split
  · exact unmask_odd h
  · exact unmask_even h
theorem isFree_tag {b : Blk} (h : b.1 % 8 = 0) : isFree (tagOf b) = b.2 := by
  obtain ⟨s, f⟩ := b
  unfold tagOf isFree
  cases f
  · simp only [Bool.false_eq_true, if_false, Nat.add_zero, beq_eq_false_iff_ne]; dsimp only at h; omega
  · simp only [if_true, beq_iff_eq]; dsimp only at h; omega
theorem setFree_of_unmask {x s : Nat} (h : unmask x = s) : setFree x = s + 1 := by unfold setFree; unfold unmask at h; omega

theorem removeFree_eq {h : Heap} {b k : Nat} (hl : ld h b = some k) (hm : (k, b) ∈ h.free) :
    removeFree h b = some { h with free := h.free.erase (k, b) } := by
  unfold removeFree; rw [hl, Option.bind_some, if_pos hm]

theorem insertKey_perm (e : Nat × Nat) (l : List (Nat × Nat)) : (insertKey e l).Perm (e :: l) := by
  induction l with
  | nil => exact List.Perm.refl _
  | cons x xs ih =>
    simp only [insertKey]
    split
    · exact List.Perm.refl _
    · exact (List.Perm.cons x ih).trans (List.Perm.swap _ _ _)

end Sdsl.Huge
