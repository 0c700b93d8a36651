/-
  `mm_realloc` of `hugepage_allocator` on well-formed heaps.
-/
import Verif.HugeSpec

namespace Sdsl.Huge

/-- Writing into the data part of a used block keeps the heap well formed. -/
theorem inv_data {h : Heap} {bs : List Blk} (hi : Inv h bs) {b s : Nat} (hm : (b, s) ∈ used 0 bs) {m' : Nat → Nat}
    (he : ∀ x, x < b + 8 ∨ b + s ≤ x + 8 → m' x = h.mem x) : Inv { h with mem := m' } bs := by
  obtain ⟨L, R, rfl, hb⟩ := mem_used hm
  rw [Nat.zero_add] at hb
  subst hb
  have hs := sinv_of_inv hi
  have s16 := hs.s16
  refine ⟨hi.good, ?_, hi.top, hi.le, hi.lt, hi.perm⟩
  have ht := (tags_append _ _ _ _).1 hi.tags
  rw [Nat.zero_add] at ht
  obtain ⟨tl, t1, t2, t3⟩ := ht
  refine (tags_append _ _ _ _).2 ⟨tags_frame hs.goodL tl fun x h1 h2 => he x (by omega), ?_⟩
  rw [Nat.zero_add]
  refine ⟨?_, ?_, tags_frame hs.goodR t3 fun x h1 h2 => he x (by dsimp only at h1; omega)⟩
  · show m' _ = _
    rw [he _ (by omega)]; exact t1
  · show m' _ = _
    rw [he _ (by dsimp only; omega)]; exact t2

/-- What `mm_realloc` promises: the block is replaced by one with room for the request that starts with the old data, and the other
used blocks are as before. -/
def ReallocOk (h : Heap) (bs : List Blk) (b s n : Nat) (h' : Heap) (q : Nat) : Prop :=
  ∃ bs' c s' rest, q = c + 8 ∧ Inv h' bs' ∧ (used 0 bs).Perm ((b, s) :: rest) ∧ (used 0 bs').Perm ((c, s') :: rest) ∧ n + 16 ≤ s' ∧
    Frame h h' rest ∧ h'.total = h.total ∧
    ∀ i, i % 8 = 0 → i + 8 ≤ n → i + 24 ≤ s → h'.mem (q + i) = h.mem (b + 8 + i)

theorem ld_used {h : Heap} {L : List Blk} {s : Nat} {R : List Blk} (hi : Inv h (L ++ (s, false) :: R)) :
    ld h (span L) = some s := by
  have hs := sinv_of_inv hi
  have := top_le hs
  have := hs.s16
  have ht := (tags_append _ _ _ _).1 hi.tags
  rw [Nat.zero_add] at ht
  rw [ld_eq (span_mod hs.goodL) (by omega), ht.2.1]
  simp [tagOf]

theorem dataSize_used {h : Heap} {L : List Blk} {s : Nat} {R : List Blk} (hi : Inv h (L ++ (s, false) :: R)) :
    dataSize h (span L) = some (s - 16) := by
  have hs := sinv_of_inv hi
  have := top_le hs
  have := hs.s16
  have := hs.lt
  unfold dataSize
  rw [ld_used hi, Option.bind_some, unmask_even hs.s8]
  have : sub64 s 16 = s - 16 := by unfold sub64; omega
  rw [this]

theorem blockNext_nil {h : Heap} {L : List Blk} {s : Nat} (hi : Inv h (L ++ [(s, false)])) : blockNext h (span L) = some none := by
  have hs := sinv_of_inv hi
  have htop := hs.top
  simp only [span] at htop
  unfold blockNext
  rw [ld_used hi, sbind, unmask_even hs.s8, if_pos (by omega)]

theorem blockNext_cons {h : Heap} {L : List Blk} {s : Nat} {c : Blk} {R : List Blk} (hi : Inv h (L ++ (s, false) :: c :: R)) :
    blockNext h (span L) = some (some (span L + s)) ∧ ld h (span L + s) = some (tagOf c) := by
  have hs := sinv_of_inv hi
  have htop := hs.top
  have hg := good_cons.1 hs.goodR
  have h8 := span_mod hs.goodL
  have s8 := hs.s8
  have hle := hs.le
  simp only [span] at htop
  constructor
  · unfold blockNext
    rw [ld_used hi, sbind, unmask_even hs.s8, if_neg (by omega)]
  · rw [ld_eq (by omega) (by omega), hs.tagsR.1]

theorem blockPrev_snoc {h : Heap} {L : List Blk} {c : Blk} {R : List Blk} (hi : Inv h (L ++ c :: R)) :
    blockPrev h (span L + c.1) = some (some (span L)) ∧ ld h (span L) = some (tagOf c) := by
  have hg := good_append.1 hi.good
  have hg2 := good_cons.1 hg.2
  have ht := (tags_append _ _ _ _).1 hi.tags
  rw [Nat.zero_add] at ht
  obtain ⟨tl, t1, t2, -⟩ := ht
  have hoff := span_mod hg.1
  have htop := hi.top
  have hle := hi.le
  rw [span_append] at htop
  simp only [span] at htop
  constructor
  · unfold blockPrev
    rw [if_neg (by omega), ld_eq (by omega) (by omega), t2, sbind, unmask_tag hg2.1.1]
    congr 2; omega
  · rw [ld_eq (by omega) (by omega), t1]

theorem upd_upd (m : Nat → Nat) (b s v : Nat) : upd (upd m b s v) b s v = upd m b s v := by
  funext x; unfold upd; split
  · rfl
  · split <;> rfl

theorem needed_eq {n d : Nat} (hn : n < 2 ^ 62) (hlt : d < n) : align (sub64 n d) = (n - d + 7) / 8 * 8 := by
  have : sub64 n d = n - d := by
    unfold sub64
    rw [show n + 2 ^ 64 - d = 2 ^ 64 + (n - d) from by omega, Nat.add_mod_left, Nat.mod_eq_of_lt (by omega)]
  rw [this, align_eq (by omega)]

/-- Enlarging the block in transit by the space behind it. -/
theorem expand_spec {h : Heap} {L : List Blk} {s : Nat} {R : List Blk} (hi : Inv h (L ++ (s, false) :: R)) {n : Nat}
    (hn : n < 2 ^ 62) (hlt : s - 16 < n) :
    (∃ e, expand h (span L) (span L + 8) (s - 16) n = some (.error e) ∧ R = [] ∧ h.total < span L + (n + 23) / 8 * 8) ∨
    (expand h (span L) (span L + 8) (s - 16) n = some (.ok (h, none)) ∧ R ≠ []) ∨
    (∃ h' q, expand h (span L) (span L + 8) (s - 16) n = some (.ok (h', some q)) ∧ ReallocOk h (L ++ (s, false) :: R) (span L) s n h' q) := by
  have hs := sinv_of_inv hi
  have hoff := span_mod hs.goodL
  have htop := hs.top
  have hle := hs.le
  have hT := hs.lt
  have s8 := hs.s8
  have s16 := hs.s16
  have hu := used_zip L s R
  have hup : (used 0 (L ++ (s, false) :: R)).Perm ((span L, s) :: (used 0 L ++ used (span L + s) R)) := by
    rw [hu]; exact List.perm_middle
  rw [expand]
  cases R with
  | nil =>
    simp only [span, Nat.add_zero] at htop
    rw [blockNext_nil hi, sbind]
    dsimp only
    rw [needed_eq hn hlt]
    obtain ⟨d, hd⟩ : ∃ d, d = (n - (s - 16) + 7) / 8 * 8 := ⟨_, rfl⟩
    rw [← hd]
    unfold expandTop hsbrk
    by_cases hc : h.total - h.top < d
    · refine Or.inl ⟨"not enough hugepage memory available", ?_, rfl, by omega⟩
      rw [if_pos hc]
    · refine Or.inr (Or.inr ⟨⟨upd h.mem (span L) (s + d) (s + d), h.top + d, h.total, h.free⟩, span L + 8, ?_,
        L ++ [(s + d, false)], span L, s + d, used 0 L ++ used (span L + s) [], rfl, ?_, hup, ?_, by omega, ?_, rfl, ?_⟩)
      · rw [if_neg hc]
        dsimp only
        have e1 : ld { h with top := h.top + d } (span L) = some s := (show ld h (span L) = some s from ld_used hi)
        rw [e1, sbind, unmask_even s8, blockUpdate_eq (unmask_even (by omega)) hoff (by omega) (by omega) (by show _ ≤ h.total; omega), sbind]
        rfl
      · refine ⟨good_append.2 ⟨hs.goodL, ?_⟩, ?_, ?_, ?_, hT, ?_⟩
        · intro b hb; rw [List.mem_singleton] at hb; subst hb; exact ⟨by show (s + d) % 8 = 0; omega, by show 16 ≤ s + d; omega⟩
        · refine (tags_append _ _ _ _).2 ⟨tags_frame hs.goodL hs.tagsL fun x h1 h2 => upd_frame (by omega) (by omega), ?_⟩
          rw [Nat.zero_add]
          exact ⟨upd_head, upd_foot, trivial⟩
        · show h.top + d = _
          rw [span_append]; simp only [span]; omega
        · show h.top + d ≤ h.total; omega
        · have := hs.perm
          rw [frees_append]; simpa [frees] using this
      · rw [used_zip]
        simp only [used, List.append_nil]
        exact List.perm_append_comm
      · exact frame_upd (s := s + d) (R := []) (by rfl) (by omega) (Nat.le_refl _) (Nat.le_refl _) |>.mono (by simp [used])
      · intro i h8 h1 h2
        show upd _ _ _ _ _ = _
        exact upd_data (by omega) (by omega)
  | cons c R' =>
    obtain ⟨t, f⟩ := c
    have hb := blockNext_cons hi
    have hg := good_cons.1 hs.goodR
    dsimp only at hg
    rw [hb.1, sbind]
    dsimp only
    rw [hb.2, sbind, isFree_tag hg.1.1, unmask_tag hg.1.1]
    dsimp only
    cases f with
    | true =>
      rw [if_pos rfl]
      by_cases hc : s - 16 + t ≥ n
      · rw [if_pos hc]
        have hmem : (tagOf (t, true), span L + s) ∈ h.free := by
          rw [hs.perm.mem_iff]; simp [frees, tagOf]
        simp only [span] at htop
        refine Or.inr (Or.inr ⟨{ h with free := h.free.erase (tagOf (t, true), span L + s), mem := upd h.mem (span L) (s + t) (s + t) },
          span L + 8, ?_, L ++ (s + t, false) :: R', span L, s + t, used 0 L ++ used (span L + s) ((t, true) :: R'), rfl, ?_, hup, ?_, by omega, ?_, rfl, ?_⟩)
        · rw [removeFree_eq hb.2 hmem, sbind]
          have e1 : ld { h with free := h.free.erase (tagOf (t, true), span L + s) } (span L) = some s := (show ld h (span L) = some s from ld_used hi)
          rw [e1, sbind, unmask_even s8,
            blockUpdate_eq (unmask_even (by omega)) hoff (by omega) (by omega) (by show _ ≤ h.total; omega), sbind]
        · have hS : SInv { h with free := h.free.erase (tagOf (t, true), span L + s), mem := upd h.mem (span L) (s + t) (s + t) } L (s + t) R' := by
            refine ⟨hs.goodL, hg.2, by omega, by omega, ?_, ?_, ?_, ?_, hle, hs.lt, ?_⟩
            · exact tags_frame hs.goodL hs.tagsL fun x h1 h2 => upd_frame (by omega) (by omega)
            · refine tags_frame hg.2 (o := span L + (s + t)) (m := h.mem) (by rw [← Nat.add_assoc]; exact hs.tagsR.2.2) fun x h1 h2 => upd_frame (by omega) (by omega)
            · show unmask (upd h.mem (span L) (s + t) (s + t) (span L)) = _
              rw [upd_head]; exact unmask_even (by omega)
            · show h.top = _; omega
            · show (h.free.erase _).Perm _
              refine (hs.perm.erase (tagOf (t, true), span L + s)).trans ?_
              have e : frees (span L + s) ((t, true) :: R') = (tagOf (t, true), span L + s) :: frees (span L + (s + t)) R' := by
                simp [frees, tagOf, Nat.add_assoc]
              rw [e]
              refine (List.Perm.erase _ List.perm_middle).trans ?_
              rw [List.erase_cons_head]
          have := inv_of_sinv hS
          have eid : upd (upd h.mem (span L) (s + t) (s + t)) (span L) (s + t) (s + t) = upd h.mem (span L) (s + t) (s + t) := by
            exact upd_upd _ _ _ _
          dsimp only at this
          rw [eid] at this
          exact this
        · rw [used_zip]
          have e : used (span L + s) ((t, true) :: R') = used (span L + (s + t)) R' := by simp [used, Nat.add_assoc]
          rw [e]; exact List.perm_middle
        · have e : used (span L + s) ((t, true) :: R') = used (span L + (s + t)) R' := by simp [used, Nat.add_assoc]
          rw [e]
          exact frame_upd (by rfl) (by omega) (Nat.le_refl _) (Nat.le_refl _)
        · intro i h8 h1 h2
          show upd _ _ _ _ _ = _
          exact upd_data (by omega) (by omega)
      · rw [if_neg hc]
        exact Or.inr (Or.inl ⟨rfl, by simp⟩)
    | false =>
      rw [if_neg (by simp)]
      rcases List.eq_nil_or_concat L with rfl | ⟨L', b, rfl⟩
      · have e1 : blockPrev h (span []) = some none := if_pos rfl
        refine Or.inr (Or.inl ⟨?_, by simp⟩)
        rw [e1, sbind]
        simp only [isFreeBlock]
        rw [sbind]
      · rw [List.concat_eq_append] at *
        obtain ⟨r, f⟩ := b
        have hspan : span (L' ++ [(r, f)]) = span L' + r := by rw [span_append]; simp [span]
        have hi2 : Inv h (L' ++ (r, f) :: (s, false) :: (t, false) :: R') := by simpa using hi
        have hp := blockPrev_snoc hi2
        have hgL := good_append.1 hs.goodL
        have hgL2 := good_cons.1 hgL.2
        dsimp only at hp hgL2
        have hoffL := span_mod hgL.1
        rw [hspan] at hoff htop ⊢
        rw [hp.1, sbind]
        simp only [isFreeBlock]
        rw [hp.2, Option.bind_some, isFree_tag hgL2.1.1, sbind]
        cases f with
        | false => exact Or.inr (Or.inl ⟨rfl, by simp⟩)
        | true =>
          dsimp only
          rw [hp.2, sbind, unmask_tag hgL2.1.1]
          dsimp only
          by_cases hc : s - 16 + r ≥ n
          · rw [if_pos hc]
            obtain ⟨m1, m2, hT'⟩ := take_zip hi2
            have hld : ld { h with free := h.free.erase (r + 1, span L') } (span L' + r) = some s := by
              have := ld_used hi
              rw [hspan] at this
              exact this
            have hrem : removeFree h (span L') = some { h with free := h.free.erase (r + 1, span L') } := by
              refine removeFree_eq ?_ m1
              rw [hp.2]; rfl
            rw [hrem, sbind, hld, sbind, unmask_even s8,
              blockUpdate_eq (unmask_even (by omega)) hoffL (by omega) (by omega) (by show _ ≤ h.total; omega), sbind]
            -- the block in transit
            have hS : SInv ⟨upd h.mem (span L') (r + s) (r + s), h.top, h.total, h.free.erase (r + 1, span L')⟩ L' (r + s) ((t, false) :: R') := by
              refine ⟨hgL.1, hs.goodR, by omega, by omega, ?_, ?_, ?_, ?_, hle, hT, ?_⟩
              · exact tags_frame hgL.1 hT'.tagsL fun x h1 h2 => upd_frame (by omega) (by omega)
              · have := hs.tagsR
                rw [hspan] at this
                refine tags_frame hs.goodR (m := h.mem) (by rw [← Nat.add_assoc]; exact this) fun x h1 h2 => upd_frame (by omega) (by omega)
              · show unmask (upd _ _ _ _ _) = _
                rw [upd_head]; exact unmask_even (by omega)
              · show h.top = _
                omega
              · have := hT'.perm
                simp only [frees, Bool.false_eq_true, if_false] at this ⊢
                rw [← Nat.add_assoc]
                exact this
            have hmu := markUsed_sinv hS
            have eid : upd (upd h.mem (span L') (r + s) (r + s)) (span L') (r + s) (r + s) = upd h.mem (span L') (r + s) (r + s) := by
              exact upd_upd _ _ _ _
            rw [eid] at hmu
            rw [hmu, sbind]
            have hI := inv_of_sinv hS
            dsimp only at hI
            rw [eid] at hI
            have hmv : memmove ⟨upd h.mem (span L') (r + s) (r + s), h.top, h.total, h.free.erase (r + 1, span L')⟩ (blockData (span L')) (span L' + r + 8) (s - 16)
                = some ⟨copyWords (upd h.mem (span L') (r + s) (r + s)) (span L' + 8) (span L' + r + 8) ((s - 16) / 8), h.top, h.total, h.free.erase (r + 1, span L')⟩ := by
              unfold memmove blockData
              rw [if_pos ⟨by show _ ≤ h.total; omega, by show _ ≤ h.total; omega⟩]
            refine Or.inr (Or.inr ⟨⟨copyWords (upd h.mem (span L') (r + s) (r + s)) (span L' + 8) (span L' + r + 8) ((s - 16) / 8), h.top, h.total,
                h.free.erase (r + 1, span L')⟩, span L' + 8, by rw [hmv, sbind]; rfl, L' ++ (r + s, false) :: (t, false) :: R', span L', r + s,
              used 0 (L' ++ [(r, true)]) ++ used (span L' + r + s) ((t, false) :: R'), rfl, ?_, by rw [hspan] at hup; exact hup, ?_, by omega, ?_, rfl, ?_⟩)
            · refine inv_data (b := span L') (s := r + s) hI (by rw [used_zip]; simp) fun x hx => ?_
              unfold copyWords
              rw [if_neg (by omega)]
            · rw [used_zip, ← Nat.add_assoc, used_zip_free]
              simp only [used]
              rw [List.append_nil]
              exact List.perm_middle
            · intro a z hm x h1 h2
              show copyWords _ _ _ _ _ = _
              have hbd : x < span L' ∨ span L' + (r + s) ≤ x := by
                rcases List.mem_append.1 hm with hm | hm
                · rw [used_zip_free] at hm
                  simp only [used, List.append_nil] at hm
                  have := used_bound hm
                  omega
                · have := used_bound hm
                  omega
              unfold copyWords
              rw [if_neg (by omega), upd_frame (by omega) hbd]
            · intro i h8 h1 h2
              show copyWords _ _ _ _ _ = _
              unfold copyWords
              rw [if_pos (by omega)]
              have : span L' + r + 8 + (span L' + 8 + i - (span L' + 8)) = span L' + r + 8 + i := by omega
              rw [this, upd_data (by omega) (by omega)]
          · rw [if_neg hc]
            exact Or.inr (Or.inl ⟨rfl, by simp⟩)

theorem memcpy_some {h h' : Heap} {dst src bytes : Nat} (he : memcpy h dst src bytes = some h') :
    (src + bytes ≤ dst ∨ dst + bytes ≤ src) ∧ (∃ m, h' = { h with mem := m } ∧
      (∀ x, x < dst ∨ dst + (bytes + 7) / 8 * 8 ≤ x → m x = h.mem x) ∧
      ∀ i, i + 8 ≤ bytes → i % 8 = 0 → m (dst + i) = h.mem (src + i)) := by
  unfold memcpy at he
  by_cases hc : src + bytes ≤ h.total ∧ dst + bytes ≤ h.total ∧ (src + bytes ≤ dst ∨ dst + bytes ≤ src)
  · rw [if_pos hc] at he
    dsimp only at he
    refine ⟨hc.2.2, ?_⟩
    injection he with he
    subst he
    refine ⟨_, rfl, ?_, ?_⟩
    · intro x hx
      split
      · unfold copyWords; rw [if_neg (by omega)]
      · dsimp only
        rw [if_neg (by omega)]; unfold copyWords; rw [if_neg (by omega)]
    · intro i h1 h2
      have hcw : copyWords h.mem dst src (bytes / 8) (dst + i) = h.mem (src + i) := by
        unfold copyWords
        rw [if_pos (by omega), Nat.add_sub_cancel_left]
      split
      · exact hcw
      · dsimp only
        rw [if_neg (by omega)]; exact hcw
  · rw [if_neg hc] at he; exact absurd he (by simp)

theorem memcpy_none {h : Heap} {dst src bytes : Nat} (he : memcpy h dst src bytes = none) (hd : dst + bytes ≤ h.total) :
    h.total < src + bytes ∨ (dst < src + bytes ∧ src < dst + bytes) := by
  unfold memcpy at he
  by_cases hc : src + bytes ≤ h.total ∧ dst + bytes ≤ h.total ∧ (src + bytes ≤ dst ∨ dst + bytes ≤ src)
  · rw [if_pos hc] at he; exact absurd he (by simp)
  · omega

theorem realloc_spec {h : Heap} {bs : List Blk} (hi : Inv h bs) {b s n : Nat} (hb : (b, s) ∈ used 0 bs)
    (hn : n < 2 ^ 62) (h1 : n % 8 ≠ 1) :
    (∃ e, realloc h (b + 8) n = some (.error e) ∧ h.total < h.top + max 32 ((n + 23) / 8 * 8)) ∨
    (∃ h' q, realloc h (b + 8) n = some (.ok (h', q)) ∧ ReallocOk h bs b s n h' q) ∨
    (realloc h (b + 8) n = none ∧ s - 16 < n ∧ ∃ h' q, alloc h n = some (.ok (h', q)) ∧
      (h.total < b + 8 + n ∨ (q < b + 8 + n ∧ b + 8 < q + n))) := by
  obtain ⟨L, R, rfl, hbe⟩ := mem_used hb
  rw [Nat.zero_add] at hbe
  subst hbe
  have hs := sinv_of_inv hi
  have s8 := hs.s8
  have s16 := hs.s16
  have htop := hs.top
  have hle := hs.le
  have hup : (used 0 (L ++ (s, false) :: R)).Perm ((span L, s) :: (used 0 L ++ used (span L + s) R)) := by
    rw [used_zip]; exact List.perm_middle
  have er : realloc h (span L + 8) n = (if n = s - 16 then some (.ok (h, span L + 8))
      else if n < s - 16 then (split h (span L) n).bind fun h => some (.ok (h, span L + 8))
      else (expand h (span L) (span L + 8) (s - 16) n).bind fun r => match r with
        | .error e => some (.error e)
        | .ok (h, some p) => some (.ok (h, p))
        | .ok (h, none) => (alloc h n).bind fun a => match a with
          | .error e => some (.error e)
          | .ok (h, newptr) => (memcpy h newptr (span L + 8) n).bind fun h => (dealloc h (span L + 8)).bind fun h => some (.ok (h, newptr))) := by
    unfold realloc blockCur
    dsimp only
    rw [Nat.add_sub_cancel, dataSize_used hi, sbind]
    rfl
  rw [er]
  by_cases c1 : n = s - 16
  · rw [if_pos c1]
    exact Or.inr (Or.inl ⟨h, _, rfl, _, span L, s, _, rfl, hi, hup, hup, by omega, Frame.refl _ _, rfl, fun _ _ _ _ => rfl⟩)
  · rw [if_neg c1]
    by_cases c2 : n < s - 16
    · rw [if_pos c2]
      obtain ⟨h', bs', s', e1, i, u, b1, b2, f, dt, t, p⟩ := split_zip hi (n := n) (by omega)
      refine Or.inr (Or.inl ⟨h', span L + 8, by rw [e1]; rfl, bs', span L, s', _, rfl, i, hup, ?_, b1, f, t, ?_⟩)
      · rw [u]; exact List.perm_middle
      · intro j j8 j1 j2
        exact dt _ (by omega) (by omega)
    · rw [if_neg c2]
      rcases expand_spec hi hn (by omega) with ⟨e, he, hR, ht⟩ | ⟨he, hR⟩ | ⟨h', q, he, hok⟩
      · refine Or.inl ⟨e, by rw [he]; rfl, by omega⟩
      · rw [he, Option.bind_some]
        dsimp only
        rcases alloc_spec hi hn h1 with ⟨e, ha, hta, -⟩ | ⟨h2, p, ha, bs2, c, s2, rfl, i2, u2, b2, f2, t2⟩
        · exact Or.inl ⟨e, by rw [ha]; rfl, hta⟩
        · rw [ha, Option.bind_some]
          dsimp only
          have hc2 : (c, s2) ∈ used 0 bs2 := by rw [u2.mem_iff]; exact List.mem_cons_self
          have hbc := used_bound hc2
          have htop2 := i2.top
          have hle2 := i2.le
          cases hm : memcpy h2 (c + 8) (span L + 8) n with
          | none =>
            refine Or.inr (Or.inr ⟨rfl, by omega, h2, c + 8, rfl, ?_⟩)
            rw [← t2]
            exact memcpy_none hm (by omega)
          | some h3 =>
            obtain ⟨hdj, m, rfl, m1, m2⟩ := memcpy_some hm
            have s28 := used_pos i2.good hc2
            have i3 : Inv { h2 with mem := m } bs2 := inv_data i2 hc2 fun x hx => m1 x (by omega)
            have hbm : (span L, s) ∈ used 0 bs2 := by rw [u2.mem_iff]; exact List.mem_cons_of_mem _ hb
            obtain ⟨L2, R2, hbs2, hspan⟩ := mem_used hbm
            rw [Nat.zero_add] at hspan
            rw [hbs2] at i3 u2 hc2
            obtain ⟨h4, bs4, e4, i4, u4, f4, t4, -⟩ := dealloc_zip i3
            have hperm : (used 0 bs4).Perm ((c, s2) :: (used 0 L ++ used (span L + s) R)) := by
              have h5 : ((span L, s) :: used 0 bs4).Perm ((span L, s) :: (c, s2) :: (used 0 L ++ used (span L + s) R)) := by
                rw [u4]
                refine List.Perm.trans ?_ ((u2.trans (List.Perm.cons _ hup)).trans (List.Perm.swap _ _ _))
                rw [used_zip, ← hspan]
                exact List.perm_middle.symm
              exact (List.perm_cons _).1 h5
            have hrest : ∀ a z, (a, z) ∈ used 0 L ++ used (span L + s) R → (a, z) ∈ used 0 bs4 := by
              intro a z hm
              rw [hperm.mem_iff]; exact List.mem_cons_of_mem _ hm
            -- the new block is disjoint from the other ones
            have hdis : ∀ a z, (a, z) ∈ used 0 (L ++ (s, false) :: R) → a + z ≤ c ∨ c + s2 ≤ a := by
              intro a z hm
              have hp1 := used_pairwise (L2 ++ (s, false) :: R2) 0
              have hp2 : ((c, s2) :: used 0 (L ++ (s, false) :: R)).Pairwise fun x y => x.1 + x.2 ≤ y.1 ∨ y.1 + y.2 ≤ x.1 :=
                List.Perm.pairwise u2 (hp1.imp fun h => Or.inl h) fun h => h.symm
              have := (List.pairwise_cons.1 hp2).1 (a, z) hm
              omega
            refine Or.inr (Or.inl ⟨h4, c + 8, ?_, bs4, c, s2, _, rfl, i4, hup, hperm, b2, ?_, by rw [t4, t2], ?_⟩)
            · rw [Option.bind_some, hspan, e4]; rfl
            · intro a z hm x x1 x2
              rw [f4 a z (by rw [← u4]; exact hrest a z hm) x x1 x2]
              have hm' : (a, z) ∈ used 0 (L ++ (s, false) :: R) := by rw [hup.mem_iff]; exact List.mem_cons_of_mem _ hm
              have := hdis a z hm'
              show m x = _
              rw [m1 x (by omega)]
              exact f2 a z hm' x x1 x2
            · intro j j8 j1 j2
              rw [f4 c s2 (by rw [← u4, hperm.mem_iff]; exact List.mem_cons_self) _ (by omega) (by omega)]
              show m _ = _
              rw [m2 j j1 j8]
              exact f2 (span L) s hb _ (by omega) (by omega)
      · refine Or.inr (Or.inl ⟨h', q, by rw [he]; rfl, hok⟩)

end Sdsl.Huge
