/-
  `mm_alloc`, `mm_free` and `mm_realloc` of `hugepage_allocator` on well-formed heaps.
-/
import Verif.HugeOps

namespace Sdsl.Huge

theorem sinv_of_inv {h : Heap} {L : List Blk} {s : Nat} {R : List Blk} (hi : Inv h (L ++ (s, false) :: R)) : SInv h L s R := by
  have hg := good_append.1 hi.good
  have hg2 := good_cons.1 hg.2
  have ht := (tags_append _ _ _ _).1 hi.tags
  rw [Nat.zero_add] at ht
  obtain ⟨tl, t1, t2, t3⟩ := ht
  refine ⟨hg.1, hg2.2, hg2.1.1, hg2.1.2, tl, t3, ?_, ?_, hi.le, hi.lt, ?_⟩
  · rw [t1, unmask_tag hg2.1.1]
  · rw [hi.top, span_append]; simp only [span]; omega
  · have := hi.perm
    rw [frees_append, Nat.zero_add] at this
    simpa [frees] using this

/-- Writing the tags of the block in transit. -/
theorem sinv_upd {h : Heap} {L : List Blk} {s : Nat} {R : List Blk} (hs : SInv h L s R) {v : Nat} (hv : unmask v = s) :
    SInv { h with mem := upd h.mem (span L) s v } L s R := by
  have s16 := hs.s16
  refine ⟨hs.goodL, hs.goodR, hs.s8, s16, ?_, ?_, ?_, hs.top, hs.le, hs.lt, hs.perm⟩
  · exact tags_frame hs.goodL hs.tagsL fun x h1 h2 => upd_frame s16 (by omega)
  · exact tags_frame hs.goodR hs.tagsR fun x h1 h2 => upd_frame s16 (by omega)
  · show unmask (upd _ _ _ _ _) = _
    rw [upd_head]; exact hv

theorem inv_of_sinv {h : Heap} {L : List Blk} {s : Nat} {R : List Blk} (hs : SInv h L s R) :
    Inv { h with mem := upd h.mem (span L) s s } (L ++ (s, false) :: R) := by
  have h2 := sinv_upd hs (unmask_even hs.s8)
  refine ⟨good_append.2 ⟨hs.goodL, good_cons.2 ⟨⟨hs.s8, hs.s16⟩, hs.goodR⟩⟩, ?_, ?_, hs.le, hs.lt, ?_⟩
  · refine (tags_append _ _ _ _).2 ⟨h2.tagsL, ?_⟩
    rw [Nat.zero_add]
    exact ⟨upd_head, upd_foot, h2.tagsR⟩
  · rw [span_append]; simp only [span]; rw [← Nat.add_assoc]; exact hs.top
  · rw [frees_append, Nat.zero_add]
    simpa [frees] using hs.perm

theorem used_zip (L : List Blk) (s : Nat) (R : List Blk) :
    used 0 (L ++ (s, false) :: R) = used 0 L ++ (span L, s) :: used (span L + s) R := by
  rw [used_append, Nat.zero_add]; simp [used]

theorem used_zip_free (L : List Blk) (s : Nat) (R : List Blk) :
    used 0 (L ++ (s, true) :: R) = used 0 L ++ used (span L + s) R := by
  rw [used_append, Nat.zero_add]; simp [used]

theorem dealloc_zip {h : Heap} {L : List Blk} {s : Nat} {R : List Blk} (hi : Inv h (L ++ (s, false) :: R)) :
    ∃ h' bs', dealloc h (span L + 8) = some h' ∧ Inv h' bs' ∧ used 0 bs' = used 0 L ++ used (span L + s) R ∧
      Frame h h' (used 0 L ++ used (span L + s) R) ∧ h'.total = h.total ∧ h'.top = h.top := by
  have hs := sinv_of_inv hi
  have hoff := span_mod hs.goodL
  have htop := hs.top
  have hle := hs.le
  have s8 := hs.s8
  have s16 := hs.s16
  have hl : ld h (span L) = some (h.mem (span L)) := ld_eq hoff (by omega)
  have hm : markFree h (span L) = some { h with mem := upd h.mem (span L) s (s + 1) } := by
    unfold markFree
    rw [hl, Option.bind_some, setFree_of_unmask hs.hdr]
    exact blockUpdate_eq (unmask_odd s8) hoff s8 s16 (by omega)
  obtain ⟨h', bs', e, i, u, f, t, p⟩ := coalesce_spec (sinv_upd hs (unmask_odd s8))
  refine ⟨h', bs', ?_, i, u, ?_, t, p⟩
  · unfold dealloc blockCur
    dsimp only
    rw [Nat.add_sub_cancel, hm, sbind, e]
  · exact Frame.trans (frame_upd (by rfl) s16 (Nat.le_refl _) (Nat.le_refl _)) f

theorem align_eq {n : Nat} (h : n < 2 ^ 63) : align n = (n + 7) / 8 * 8 := by
  unfold align; rw [Nat.mod_eq_of_lt (by omega)]

theorem align_add {n : Nat} (h : n < 2 ^ 62) : align (add64 n overhead) = (n + 23) / 8 * 8 := by
  unfold add64 overhead
  rw [Nat.mod_eq_of_lt (by omega), align_eq (by omega)]

theorem split_zip {h : Heap} {L : List Blk} {s : Nat} {R : List Blk} (hi : Inv h (L ++ (s, false) :: R)) {n : Nat}
    (hn : n + 16 ≤ s) :
    ∃ h' bs' s', split h (span L) n = some h' ∧ Inv h' bs' ∧
      used 0 bs' = used 0 L ++ (span L, s') :: used (span L + s) R ∧ n + 16 ≤ s' ∧ s' ≤ s ∧
      Frame h h' (used 0 L ++ used (span L + s) R) ∧
      (∀ x, span L + 8 ≤ x → x + 8 < span L + s' ∨ (x + 8 ≤ span L + s' ∧ x ≠ span L + s' - 8) → h'.mem x = h.mem x) ∧
      h'.total = h.total ∧ h'.top = h.top := by
  have hs := sinv_of_inv hi
  have hoff := span_mod hs.goodL
  have htop := hs.top
  have hle := hs.le
  have hlt := hs.lt
  have s8 := hs.s8
  have s16 := hs.s16
  have hl : ld h (span L) = some (h.mem (span L)) := ld_eq hoff (by omega)
  obtain ⟨A, hA⟩ : ∃ A, A = (n + 23) / 8 * 8 := ⟨_, rfl⟩
  have hal : align (add64 n overhead) = A := by rw [align_add (by omega), hA]
  have hA8 : A % 8 = 0 := by rw [hA]; omega
  have hAn : n + 16 ≤ A := by omega
  have hAs : A ≤ s := by omega
  have hnew : alignSplit (sub64 s A) = s - A := by
    unfold alignSplit sub64; omega
  have esp : split h (span L) n = if s - A < 2 ^ 63 ∧ minBlock ≤ s - A then (do
      let h ← blockUpdate h (span L) (s - (s - A))
      let nb := span L + (s - (s - A))
      let h ← blockUpdate h nb (s - A)
      coalesce h nb) else some h := by
    unfold split
    rw [hl, sbind]
    dsimp only
    rw [hs.hdr, hal, hnew]
  have e3 : s - (s - A) = A := by omega
  rw [e3] at esp
  by_cases hc : s - A < 2 ^ 63 ∧ minBlock ≤ s - A
  · rw [if_pos hc] at esp
    have h32 : 32 ≤ s - A := hc.2
    rw [blockUpdate_eq (unmask_even hA8) hoff hA8 (by omega) (by omega), sbind] at esp
    dsimp only at esp
    rw [blockUpdate_eq (s := s - A) (unmask_even (by omega)) (by omega) (by omega) (by omega) (by show _ ≤ h.total; omega), sbind] at esp
    dsimp only at esp
    have hsp : span (L ++ [(A, false)]) = span L + A := by rw [span_append]; simp [span]
    obtain ⟨m2, hm2⟩ : ∃ m2, m2 = upd (upd h.mem (span L) A A) (span L + A) (s - A) (s - A) := ⟨_, rfl⟩
    rw [← hm2] at esp
    have hS : SInv { h with mem := m2 } (L ++ [(A, false)]) (s - A) R := by
      refine ⟨good_append.2 ⟨hs.goodL, ?_⟩, hs.goodR, by omega, by omega, ?_, ?_, ?_, ?_, hle, hlt, ?_⟩
      · intro b hb; rw [List.mem_singleton] at hb; subst hb; exact ⟨hA8, by show 16 ≤ A; omega⟩
      · refine (tags_append _ _ _ _).2 ⟨tags_frame hs.goodL hs.tagsL fun x h1 h2 => ?_, ?_⟩
        · show m2 x = _
          rw [hm2, upd_frame (by omega) (by omega), upd_frame (by omega) (by omega)]
        · rw [Nat.zero_add]
          refine ⟨?_, ?_, trivial⟩
          · show m2 _ = _
            rw [hm2, upd_frame (by omega) (by omega), upd_head]; simp [tagOf]
          · show m2 _ = _
            rw [hm2]
            dsimp only
            rw [upd_frame (by omega) (by omega), upd_foot]; simp [tagOf]
      · rw [hsp, Nat.add_assoc, Nat.add_sub_cancel' hAs]
        refine tags_frame hs.goodR hs.tagsR fun x h1 h2 => ?_
        show m2 x = _
        rw [hm2, upd_frame (by omega) (by omega), upd_frame (by omega) (by omega)]
      · rw [hsp]
        show unmask (m2 _) = _
        rw [hm2, upd_head, unmask_even (by omega)]
      · show h.top = _
        rw [hsp]; omega
      · show h.free.Perm _
        rw [hsp, Nat.add_assoc, Nat.add_sub_cancel' hAs, frees_append]
        simpa [frees] using hs.perm
    obtain ⟨h', bs', e, i, u, f, t, p⟩ := coalesce_spec hS
    rw [hsp] at e u f
    rw [Nat.add_assoc, Nat.add_sub_cancel' hAs] at u f
    have eu : used 0 (L ++ [(A, false)]) = used 0 L ++ [(span L, A)] := by rw [used_append]; simp [used]
    rw [eu, List.append_assoc, List.singleton_append] at u f
    refine ⟨h', bs', A, ?_, i, u, hAn, hAs, ?_, ?_, t, p⟩
    · rw [esp, e]
    · have f1 : Frame h { h with mem := m2 } (used 0 L ++ used (span L + s) R) := by
        intro a t hm' x h1 h2
        show m2 x = _
        rw [hm2]
        rcases List.mem_append.1 hm' with h | h
        · have := used_bound h
          rw [upd_frame (by omega) (by omega), upd_frame (by omega) (by omega)]
        · have := used_bound h
          rw [upd_frame (by omega) (by omega), upd_frame (by omega) (by omega)]
      refine f1.trans (f.mono ?_)
      intro y hy
      simp only [List.mem_append, List.mem_cons] at hy ⊢
      rcases hy with hy | hy
      · exact Or.inl hy
      · exact Or.inr (Or.inr hy)
    · intro x h1 h2
      rw [f (span L) A (by simp) x (by omega) (by omega)]
      show m2 x = _
      rw [hm2, upd_frame (by omega) (by omega), upd_data h1 h2]
  · rw [if_neg hc] at esp
    exact ⟨h, _, s, esp, hi, used_zip L s R, hn, Nat.le_refl _, Frame.refl _ _, fun _ _ _ => rfl, rfl, rfl⟩

/-- Taking a free block out of the free set and marking it as used. -/
theorem take_zip {h : Heap} {L : List Blk} {s : Nat} {R : List Blk} (hi : Inv h (L ++ (s, true) :: R)) :
    (s + 1, span L) ∈ h.free ∧ h.mem (span L) = s + 1 ∧
    SInv { h with free := h.free.erase (s + 1, span L) } L s R := by
  have hg := good_append.1 hi.good
  have hg2 := good_cons.1 hg.2
  have ht := (tags_append _ _ _ _).1 hi.tags
  rw [Nat.zero_add] at ht
  obtain ⟨tl, t1, t2, t3⟩ := ht
  have hp := hi.perm
  rw [frees_append, Nat.zero_add] at hp
  simp only [frees, if_true] at hp
  refine ⟨by rw [hp.mem_iff]; simp, by rw [t1]; simp [tagOf], hg.1, hg2.2, hg2.1.1, hg2.1.2, tl, t3, ?_, ?_, hi.le, hi.lt, ?_⟩
  · show unmask (h.mem _) = _
    rw [t1, unmask_tag hg2.1.1]
  · show h.top = _
    rw [hi.top, span_append]; simp only [span]; omega
  · show (h.free.erase _).Perm _
    refine (hp.erase _).trans ?_
    refine (List.Perm.erase _ List.perm_middle).trans ?_
    rw [List.erase_cons_head]

theorem top_le {h : Heap} {L : List Blk} {s : Nat} {R : List Blk} (hs : SInv h L s R) : span L + s ≤ h.total := by
  have := hs.top; have := hs.le; omega

theorem markUsed_sinv {h : Heap} {L : List Blk} {s : Nat} {R : List Blk} (hs : SInv h L s R) :
    markUsed h (span L) = some { h with mem := upd h.mem (span L) s s } := by
  have hoff := span_mod hs.goodL
  have hle := top_le hs
  have s8 := hs.s8
  have s16 := hs.s16
  unfold markUsed
  rw [ld_eq hoff (by omega), Option.bind_some, hs.hdr]
  exact blockUpdate_eq (unmask_even s8) hoff s8 s16 hle

/-- What `mm_alloc` promises: a used block with room for the request is added and nothing else changes. -/
def AllocOk (h : Heap) (bs : List Blk) (n : Nat) (h' : Heap) (p : Nat) : Prop :=
  ∃ bs' b s', p = b + 8 ∧ Inv h' bs' ∧ (used 0 bs').Perm ((b, s') :: used 0 bs) ∧ n + 16 ≤ s' ∧ Frame h h' (used 0 bs) ∧
    h'.total = h.total

theorem alloc_spec {h : Heap} {bs : List Blk} (hi : Inv h bs) {n : Nat} (hn : n < 2 ^ 62) (h1 : n % 8 ≠ 1) :
    (∃ e, alloc h n = some (.error e) ∧ h.total < h.top + max 32 ((n + 23) / 8 * 8) ∧ ∀ e ∈ h.free, e.1 < n + 16) ∨
    (∃ h' p, alloc h n = some (.ok (h', p)) ∧ AllocOk h bs n h' p) := by
  have hadd : add64 n overhead = n + 16 := by unfold add64 overhead; omega
  have hlt := hi.lt
  unfold alloc findFree
  rw [hadd]
  cases hf : h.free.find? (fun e => decide (n + 16 ≤ e.1)) with
  | some e =>
    refine Or.inr ?_
    obtain ⟨k, a⟩ := e
    have hk : n + 16 ≤ k := by simpa using List.find?_some hf
    have hmem := List.mem_of_find?_eq_some hf
    rw [hi.perm.mem_iff] at hmem
    obtain ⟨L, R, s, rfl, ha, rfl⟩ := mem_frees hmem
    rw [Nat.zero_add] at ha
    subst ha
    obtain ⟨m1, m2, hs⟩ := take_zip hi
    have hns : n + 16 ≤ s := by have := hs.s8; omega
    have hi2 := inv_of_sinv hs
    obtain ⟨h', bs', s', e1, i, u, b1, b2, f, dt, t, p⟩ := split_zip hi2 hns
    refine ⟨h', span L + 8, ?_, bs', span L, s', rfl, i, ?_, b1, ?_, t⟩
    · dsimp only
      rw [markUsed_sinv hs, sbind]
      dsimp only at e1 ⊢
      rw [e1, sbind]; rfl
    · rw [u, used_zip_free]; exact List.perm_middle
    · rw [used_zip_free]
      refine Frame.trans (h2 := { h with mem := upd h.mem (span L) s s }) ?_ ?_
      · exact frame_upd (by rfl) hs.s16 (Nat.le_refl _) (Nat.le_refl _)
      · intro a t hm x y1 y2
        exact f a t hm x y1 y2
  | none =>
    have hall : ∀ e ∈ h.free, e.1 < n + 16 := by
      intro e he
      have := List.find?_eq_none.1 hf e he
      simpa using this
    dsimp only
    -- the block at the top
    have hnew : newBlock h n = (match hsbrk h (max 32 ((n + 23) / 8 * 8)) with
        | .error e => some (.error e)
        | .ok (h, p) => (blockUpdate h p (max 32 ((n + 23) / 8 * 8))).bind fun h => some (.ok (h, p))) := by
      unfold newBlock
      rw [align_add hn]
      have : (if (n + 23) / 8 * 8 < minBlock then minBlock else (n + 23) / 8 * 8) = max 32 ((n + 23) / 8 * 8) := by
        unfold minBlock; split <;> omega
      simp only [this]
      rfl
    have hN : (max 32 ((n + 23) / 8 * 8)) % 8 = 0 ∧ n + 16 ≤ max 32 ((n + 23) / 8 * 8) ∧ 16 ≤ max 32 ((n + 23) / 8 * 8) := by omega
    obtain ⟨N, hNd⟩ : ∃ N, N = max 32 ((n + 23) / 8 * 8) := ⟨_, rfl⟩
    rw [← hNd] at hnew hN ⊢
    have fresh : (∃ e, (newBlock h n).bind (fun r => match r with
        | .error e => some (.error e)
        | .ok (h, b) => some (Except.ok (h, blockData b))) = some (.error e) ∧ h.total < h.top + N ∧ ∀ e ∈ h.free, e.1 < n + 16) ∨
        (∃ h' p, (newBlock h n).bind (fun r => match r with
        | .error e => some (.error e)
        | .ok (h, b) => some (Except.ok (h, blockData b))) = some (.ok (h', p)) ∧ AllocOk h bs n h' p) := by
      rw [hnew]
      unfold hsbrk
      have hle := hi.le
      by_cases hc : h.total - h.top < N
      · refine Or.inl ⟨"not enough hugepage memory available", ?_, by omega, hall⟩
        rw [if_pos hc]; rfl
      · refine Or.inr ⟨{ h with top := h.top + N, mem := upd h.mem h.top N N }, h.top + 8, ?_, bs ++ [(N, false)], h.top, N, rfl,
          ?_, ?_, hN.2.1, ?_, rfl⟩
        · rw [if_neg hc]
          dsimp only
          rw [blockUpdate_eq (unmask_even hN.1) (by rw [hi.top]; exact span_mod hi.good) hN.1 hN.2.2 (by show _ ≤ h.total; omega)]
          rfl
        · have htop := hi.top
          refine ⟨good_append.2 ⟨hi.good, ?_⟩, ?_, ?_, ?_, hlt, ?_⟩
          · intro b hb; rw [List.mem_singleton] at hb; subst hb; exact ⟨hN.1, hN.2.2⟩
          · refine (tags_append _ _ _ _).2 ⟨tags_frame hi.good hi.tags fun x h1 h2 => upd_frame hN.2.2 (by omega), ?_⟩
            rw [Nat.zero_add, ← htop]
            exact ⟨upd_head, upd_foot, trivial⟩
          · show h.top + N = _
            rw [span_append]; simp only [span]; omega
          · show h.top + N ≤ h.total; omega
          · rw [frees_append]; simpa [frees] using hi.perm
        · rw [used_append, Nat.zero_add, ← hi.top]
          simp only [used, Bool.false_eq_true, if_false]
          exact List.perm_append_comm
        · have := frame_upd (h := h) (h' := { h with top := h.top + N, mem := upd h.mem h.top N N }) (L := bs) (R := []) (o := h.top + N)
            (by rfl) hN.2.2 (Nat.le_of_eq hi.top.symm) (Nat.le_refl _)
          simpa [used] using this
    rcases List.eq_nil_or_concat bs with rfl | ⟨L, b, rfl⟩
    · have htop : h.top = 0 := hi.top
      have : lastBlock h = some none := by unfold lastBlock; rw [if_neg (by omega)]
      rw [this, sbind]
      simp only [isFreeBlock]
      rw [sbind]
      exact fresh
    · rw [List.concat_eq_append] at *
      obtain ⟨s, f⟩ := b
      have hg := good_append.1 hi.good
      have hg2 := good_cons.1 hg.2
      dsimp only at hg2
      have ht := (tags_append _ _ _ _).1 hi.tags
      rw [Nat.zero_add] at ht
      obtain ⟨tl, t1, t2, -⟩ := ht
      dsimp only at t2
      have hoff := span_mod hg.1
      have htop : h.top = span L + s := by rw [hi.top, span_append]; simp [span]
      have hle := hi.le
      have hlast : lastBlock h = some (some (span L)) := by
        unfold lastBlock
        rw [if_pos (by omega), ld_eq (by omega) (by omega), htop, t2, sbind, unmask_tag hg2.1.1]
        congr 2; dsimp only; omega
      have hl2 : ld h (span L) = some (tagOf (s, f)) := by rw [ld_eq (by omega) (by omega), t1]
      rw [hlast, sbind]
      simp only [isFreeBlock]
      rw [hl2, Option.bind_some, isFree_tag hg2.1.1, sbind]
      cases f with
      | false => exact fresh
      | true =>
        have hs8 := hg2.1.1
        have hs16 := hg2.1.2
        obtain ⟨m1, m2, hs⟩ := take_zip hi
        have hsn := hall _ m1
        dsimp only at hsn
        have hds : dataSize h (span L) = some (s - 16) := by
          unfold dataSize
          have : sub64 s 16 = s - 16 := by unfold sub64; omega
          rw [hl2, Option.bind_some, unmask_tag hs8, this]
        have hnd : align (sub64 n (s - 16)) = (n - (s - 16) + 7) / 8 * 8 := by
          have : sub64 n (s - 16) = n - (s - 16) := by unfold sub64; omega
          rw [this, align_eq (by omega)]
        dsimp only
        rw [hds, sbind]
        rw [hnd]
        obtain ⟨d, hd⟩ : ∃ d, d = (n - (s - 16) + 7) / 8 * 8 := ⟨_, rfl⟩
        rw [← hd]
        have hd8 : d % 8 = 0 := by omega
        have hds2 : n + 16 ≤ s + d := by omega
        unfold hsbrk
        by_cases hc : h.total - h.top < d
        · refine Or.inl ⟨"not enough hugepage memory available", ?_, by omega, hall⟩
          rw [if_pos hc]
        · refine Or.inr ⟨⟨upd (upd h.mem (span L) (s + d) (s + d)) (span L) (s + d) (s + d), h.top + d, h.total, h.free.erase (s + 1, span L)⟩,
              span L + 8, ?_, L ++ [(s + d, false)], span L, s + d, rfl, ?_, ?_, hds2, ?_, rfl⟩
          · rw [if_neg hc]
            dsimp only
            have hl3 : ld { h with top := h.top + d } (span L) = some (s + 1) := by
              show ld h (span L) = _
              rw [ld_eq (by omega) (by omega), m2]
            have e1 : removeFree { h with top := h.top + d } (span L) = some { h with top := h.top + d, free := h.free.erase (s + 1, span L) } :=
              removeFree_eq hl3 m1
            rw [e1, sbind]
            have e2 : s - 16 + d + 8 + 8 = s + d := by omega
            rw [e2, blockUpdate_eq (unmask_even (by omega)) hoff (by omega) (by omega) (by show _ ≤ h.total; omega), sbind]
            dsimp only
            unfold markUsed
            rw [ld_eq (by omega) (by show _ ≤ h.total; omega), Option.bind_some]
            dsimp only
            rw [upd_head, unmask_even (by omega),
              blockUpdate_eq (unmask_even (by omega)) hoff (by omega) (by omega) (by show _ ≤ h.total; omega), sbind]
            rfl
          · have hS : SInv { h with top := h.top + d, mem := upd h.mem (span L) (s + d) (s + d), free := h.free.erase (s + 1, span L) } L (s + d) [] := by
              refine ⟨hs.goodL, hs.goodR, by omega, by omega, ?_, trivial, ?_, ?_, ?_, hs.lt, ?_⟩
              · exact tags_frame hs.goodL hs.tagsL fun x h1 h2 => upd_frame (by omega) (by omega)
              · show unmask (upd _ _ _ _ _) = _
                rw [upd_head, unmask_even (by omega)]
              · show h.top + d = _
                simp only [span]; omega
              · show h.top + d ≤ h.total; omega
              · exact hs.perm
            exact inv_of_sinv hS
          · rw [used_zip L (s + d) [], used_zip_free]
            simp only [used, List.append_nil]
            exact List.perm_append_comm
          · rw [used_zip_free]
            simp only [used]
            obtain ⟨m, hm⟩ : ∃ m, m = upd h.mem (span L) (s + d) (s + d) := ⟨_, rfl⟩
            rw [← hm]
            have f1 := frame_upd (h := h) (h' := { h with mem := m }) (L := L) (R := []) (o := span L + (s + d))
              hm (by omega) (Nat.le_refl _) (Nat.le_refl _)
            have f2 := frame_upd (h := { h with mem := m }) (h' := ⟨upd m (span L) (s + d) (s + d), h.top + d, h.total, h.free.erase (s + 1, span L)⟩) (L := L) (R := []) (o := span L + (s + d))
              (by rfl) (by omega) (Nat.le_refl _) (Nat.le_refl _)
            exact f1.trans f2

end Sdsl.Huge
