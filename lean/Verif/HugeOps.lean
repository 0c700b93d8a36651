/-
  The operations of `hugepage_allocator` on well-formed heaps.
-/
import Verif.HugeLemmas

namespace Sdsl.Huge

/-- The given blocks are untouched. -/
def Frame (h h' : Heap) (U : List (Nat × Nat)) : Prop :=
  ∀ a s, (a, s) ∈ U → ∀ x, a ≤ x → x < a + s → h'.mem x = h.mem x

theorem Frame.refl (h : Heap) (U) : Frame h h U := fun _ _ _ _ _ _ => rfl

theorem Frame.trans {h1 h2 h3 : Heap} {U} (a : Frame h1 h2 U) (b : Frame h2 h3 U) : Frame h1 h3 U :=
  fun x s hx y h1 h2 => (b x s hx y h1 h2).trans (a x s hx y h1 h2)

theorem Frame.mono {h1 h2 : Heap} {U V} (a : Frame h1 h2 U) (hs : V ⊆ U) : Frame h1 h2 V :=
  fun x s hx => a x s (hs hx)

theorem frame_upd {h h' : Heap} {b s v : Nat} {L R : List Blk} (hm : h'.mem = upd h.mem b s v) (h16 : 16 ≤ s)
    (hL : span L ≤ b) {o : Nat} (ho : b + s ≤ o) : Frame h h' (used 0 L ++ used o R) := by
  intro a t hm' x h1 h2
  rw [hm]
  rcases List.mem_append.1 hm' with h | h
  · have := used_bound h
    exact upd_frame h16 (by omega)
  · have := used_bound h
    exact upd_frame h16 (by omega)

theorem coalesceNext_spec {h : Heap} {L : List Blk} {s : Nat} {R : List Blk} (hs : SInv h L s R) :
    ∃ h1 s1 R1, coalesceNext h (span L) = some h1 ∧ SInv h1 L s1 R1 ∧ used (span L + s1) R1 = used (span L + s) R ∧
      Frame h h1 (used 0 L ++ used (span L + s) R) ∧ h1.total = h.total ∧ h1.top = h.top := by
  have hoff := span_mod hs.goodL
  have htop := hs.top
  have hle := hs.le
  have hl : ld h (span L) = some (h.mem (span L)) := ld_eq hoff (by have := hs.s16; omega)
  have hnext : blockNext h (span L) = if span L + s ≥ h.top then some none else some (some (span L + s)) := by
    unfold blockNext; rw [hl, sbind, hs.hdr]
  cases R with
  | nil =>
    simp only [span] at htop
    refine ⟨h, s, [], ?_, hs, rfl, Frame.refl _ _, rfl, rfl⟩
    unfold coalesceNext
    rw [hnext, if_pos (by omega), sbind]
    rfl
  | cons b R' =>
    obtain ⟨t, f⟩ := b
    simp only [span] at htop
    have hg := good_cons.1 hs.goodR
    have ht := hs.tagsR
    obtain ⟨t1, t2, t3⟩ := ht
    dsimp only at hg t2 t3
    have s8 := hs.s8
    have s16 := hs.s16
    have hl2 : ld h (span L + s) = some (tagOf (t, f)) := by rw [ld_eq (by omega) (by omega), t1]
    rw [if_neg (by omega)] at hnext
    have hf : isFree (tagOf (t, f)) = f := isFree_tag hg.1.1
    cases f with
    | false =>
      refine ⟨h, s, _, ?_, hs, rfl, Frame.refl _ _, rfl, rfl⟩
      unfold coalesceNext
      rw [hnext, sbind]
      simp only [isFreeBlock]
      rw [hl2, Option.bind_some, hf, sbind]
    | true =>
      have hmem : (tagOf (t, true), span L + s) ∈ h.free := by
        rw [hs.perm.mem_iff]; simp [frees, tagOf]
      refine ⟨{ h with free := h.free.erase (tagOf (t, true), span L + s), mem := upd h.mem (span L) (s + t) (s + t) }, s + t, R',
        ?_, ?_, ?_, ?_, rfl, rfl⟩
      · unfold coalesceNext
        rw [hnext, sbind]
        simp only [isFreeBlock]
        rw [hl2, Option.bind_some, hf, sbind]
        dsimp only
        rw [removeFree_eq hl2 hmem, sbind]
        have e1 : ld { h with free := h.free.erase (tagOf (t, true), span L + s) } (span L) = some (h.mem (span L)) := hl
        have e2 : ld { h with free := h.free.erase (tagOf (t, true), span L + s) } (span L + s) = some (tagOf (t, true)) := hl2
        rw [e1, sbind, e2, sbind, hs.hdr, unmask_tag hg.1.1]
        exact blockUpdate_eq (unmask_even (by omega)) hoff (by omega) (by omega) (by show _ ≤ h.total; omega)
      · refine ⟨hs.goodL, hg.2, by omega, by omega, ?_, ?_, ?_, ?_, hle, hs.lt, ?_⟩
        · exact tags_frame hs.goodL hs.tagsL fun x h1 h2 => upd_frame (by omega) (by omega)
        · refine tags_frame hg.2 (o := span L + (s + t)) (m := h.mem) (by rw [← Nat.add_assoc]; exact t3) fun x h1 h2 => upd_frame (by omega) (by omega)
        · show unmask (upd h.mem (span L) (s + t) (s + t) (span L)) = _
          rw [upd_head]; exact unmask_even (by omega)
        · show h.top = _; omega
        · show (h.free.erase _).Perm _
          refine (hs.perm.erase (tagOf (t, true), span L + s)).trans ?_
          have e : frees (span L + s) ((t, true) :: R') = (tagOf (t, true), span L + s) :: frees (span L + (s + t)) R' := by
            simp [frees, tagOf, Nat.add_assoc]
          rw [e]
          refine (List.Perm.erase _ List.perm_middle).trans ?_
          rw [List.erase_cons_head]
      · simp [used, Nat.add_assoc]
      · have e : used (span L + s) ((t, true) :: R') = used (span L + (s + t)) R' := by simp [used, Nat.add_assoc]
        rw [e]
        exact frame_upd (by rfl) (by omega) (Nat.le_refl _) (by omega)

theorem coalescePrev_spec {h : Heap} {L : List Blk} {s : Nat} {R : List Blk} (hs : SInv h L s R) :
    ∃ h1 L1 s1, coalescePrev h (span L) = some (h1, span L1) ∧ SInv h1 L1 s1 R ∧ used 0 L1 = used 0 L ∧
      span L1 + s1 = span L + s ∧
      Frame h h1 (used 0 L ++ used (span L + s) R) ∧ h1.total = h.total ∧ h1.top = h.top := by
  have hoff := span_mod hs.goodL
  have htop := hs.top
  have hle := hs.le
  have s8 := hs.s8
  have s16 := hs.s16
  have hl : ld h (span L) = some (h.mem (span L)) := ld_eq hoff (by omega)
  rcases List.eq_nil_or_concat L with rfl | ⟨L', b, rfl⟩
  · refine ⟨h, [], s, ?_, hs, rfl, rfl, Frame.refl _ _, rfl, rfl⟩
    rfl
  · obtain ⟨t, f⟩ := b
    have hspan : span (L' ++ [(t, f)]) = span L' + t := by rw [span_append]; simp [span]
    rw [List.concat_eq_append] at *
    have hg := good_append.1 hs.goodL
    have hg2 := good_cons.1 hg.2
    dsimp only at hg2
    have ht := (tags_append _ _ _ _).1 hs.tagsL
    rw [Nat.zero_add] at ht
    obtain ⟨tl, t1, t2, -⟩ := ht
    dsimp only at t2
    have hoff' := span_mod hg.1
    rw [hspan] at hl htop hoff
    have hl3 : ld h (span L' + t - 8) = some (tagOf (t, f)) := by rw [ld_eq (by omega) (by omega), t2]
    have hl2 : ld h (span L') = some (tagOf (t, f)) := by rw [ld_eq (by omega) (by omega), t1]
    have hf : isFree (tagOf (t, f)) = f := isFree_tag hg2.1.1
    have hprev : blockPrev h (span L' + t) = some (some (span L')) := by
      unfold blockPrev
      rw [if_neg (by omega), hl3, sbind, unmask_tag hg2.1.1]
      congr 2; dsimp only; omega
    cases f with
    | false =>
      refine ⟨h, L' ++ [(t, false)], s, ?_, hs, rfl, rfl, Frame.refl _ _, rfl, rfl⟩
      unfold coalescePrev
      rw [hspan, hprev, sbind]
      simp only [isFreeBlock]
      rw [hl2, Option.bind_some, hf, sbind]
    | true =>
      have hmem : (tagOf (t, true), span L') ∈ h.free := by
        rw [hs.perm.mem_iff, frees_append]; simp [frees, tagOf]
      have hhdr := hs.hdr
      rw [hspan] at hhdr
      have hperm := hs.perm
      have htr := hs.tagsR
      rw [hspan] at htr hperm ⊢
      have eu : used 0 (L' ++ [(t, true)]) = used 0 L' := by rw [used_append]; simp [used]
      refine ⟨{ h with free := h.free.erase (tagOf (t, true), span L'), mem := upd h.mem (span L') (t + s) (t + s) }, L', t + s,
        ?_, ?_, eu.symm, by omega, ?_, rfl, rfl⟩
      · unfold coalescePrev
        rw [hprev, sbind]
        simp only [isFreeBlock]
        rw [hl2, Option.bind_some, hf, sbind]
        dsimp only
        rw [removeFree_eq hl2 hmem, sbind]
        have e1 : ld { h with free := h.free.erase (tagOf (t, true), span L') } (span L') = some (tagOf (t, true)) := hl2
        have e2 : ld { h with free := h.free.erase (tagOf (t, true), span L') } (span L' + t) = some (h.mem (span L' + t)) := hl
        rw [e1, sbind, e2, sbind, hhdr, unmask_tag hg2.1.1,
          blockUpdate_eq (unmask_even (by dsimp only; omega)) hoff' (by dsimp only; omega) (by dsimp only; omega) (by show _ ≤ h.total; dsimp only; omega), sbind]
      · refine ⟨hg.1, hs.goodR, by omega, by omega, ?_, ?_, ?_, ?_, hle, hs.lt, ?_⟩
        · exact tags_frame hg.1 tl fun x h1 h2 => upd_frame (by omega) (by omega)
        · refine tags_frame hs.goodR (o := span L' + (t + s)) (m := h.mem) (by rw [← Nat.add_assoc]; exact htr) fun x h1 h2 => upd_frame (by omega) (by omega)
        · show unmask (upd h.mem (span L') (t + s) (t + s) (span L')) = _
          rw [upd_head]; exact unmask_even (by omega)
        · show h.top = _; omega
        · show (h.free.erase _).Perm _
          refine (hperm.erase (tagOf (t, true), span L')).trans ?_
          have e : frees 0 (L' ++ [(t, true)]) = frees 0 L' ++ [(tagOf (t, true), span L')] := by
            rw [frees_append]; simp [frees, tagOf]
          rw [e, List.append_assoc, List.singleton_append, Nat.add_assoc]
          refine (List.Perm.erase _ List.perm_middle).trans ?_
          rw [List.erase_cons_head]
      · rw [eu]
        exact frame_upd (by rfl) (by omega) (Nat.le_refl _) (by omega)

theorem coalesce_spec {h : Heap} {L : List Blk} {s : Nat} {R : List Blk} (hs : SInv h L s R) :
    ∃ h' bs', coalesce h (span L) = some h' ∧ Inv h' bs' ∧ used 0 bs' = used 0 L ++ used (span L + s) R ∧
      Frame h h' (used 0 L ++ used (span L + s) R) ∧ h'.total = h.total ∧ h'.top = h.top := by
  obtain ⟨h1, s1, R1, e1, i1, u1, f1, t1, p1⟩ := coalesceNext_spec hs
  obtain ⟨h2, L2, s2, e2, i2, u2, q2, f2, t2, p2⟩ := coalescePrev_spec i1
  have hoff := span_mod i2.goodL
  have htop := i2.top
  have hle := i2.le
  have s8 := i2.s8
  have s16 := i2.s16
  have hl : ld h2 (span L2) = some (h2.mem (span L2)) := ld_eq hoff (by omega)
  have hm : markFree h2 (span L2) = some { h2 with mem := upd h2.mem (span L2) s2 (s2 + 1) } := by
    unfold markFree
    rw [hl, Option.bind_some, setFree_of_unmask i2.hdr]
    exact blockUpdate_eq (unmask_odd s8) hoff s8 s16 (by omega)
  have hl' : ld { h2 with mem := upd h2.mem (span L2) s2 (s2 + 1) } (span L2) = some (s2 + 1) := by
    rw [ld_eq hoff (by show _ ≤ h2.total; omega)]
    show some (upd _ _ _ _ _) = _
    rw [upd_head]
  have eu : used 0 (L2 ++ (s2, true) :: R1) = used 0 L ++ used (span L + s) R := by
    rw [used_append, u2, Nat.zero_add]
    simp only [used, if_true]
    rw [q2, u1]
  refine ⟨{ h2 with mem := upd h2.mem (span L2) s2 (s2 + 1), free := insertKey (s2 + 1, span L2) h2.free }, L2 ++ (s2, true) :: R1,
    ?_, ?_, eu, ?_, by rw [← t1, ← t2], by rw [← p1, ← p2]⟩
  · unfold coalesce
    rw [e1, sbind, e2, sbind]
    dsimp only
    rw [hm, sbind]
    unfold insertFree
    rw [hl']; rfl
  · refine ⟨good_append.2 ⟨i2.goodL, good_cons.2 ⟨⟨s8, s16⟩, i2.goodR⟩⟩, ?_, ?_, hle, i2.lt, ?_⟩
    · refine (tags_append _ _ _ _).2 ⟨tags_frame i2.goodL i2.tagsL fun x h1 h2 => upd_frame s16 (by omega), ?_⟩
      rw [Nat.zero_add]
      refine ⟨upd_head, upd_foot, tags_frame i2.goodR i2.tagsR fun x h1 h2 => upd_frame s16 (by dsimp only at h1; omega)⟩
    · show h2.top = _
      rw [span_append]; simp only [span]; omega
    · show (insertKey _ _).Perm _
      refine (insertKey_perm _ _).trans ?_
      rw [frees_append, Nat.zero_add]
      simp only [frees, if_true]
      exact (List.Perm.cons _ i2.perm).trans List.perm_middle.symm
  · refine f1.trans ?_
    rw [← u1, ← q2] at *
    refine f2.trans ?_
    rw [← u2]
    exact frame_upd (by rfl) s16 (Nat.le_refl _) (Nat.le_refl _)

end Sdsl.Huge
