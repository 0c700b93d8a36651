/-
  Histories of client operations on `hugepage_allocator`.
-/
import Verif.HugeRealloc
import Mathlib.Data.List.Perm.Basic

namespace Sdsl.Huge

/-- The live allocations are the used blocks `U`, index by index. -/
structure LiveOk (bs : List Blk) (live : Live) (U : List (Nat × Nat)) : Prop where
  perm : U.Perm (used 0 bs)
  len : U.length = live.length
  ok : ∀ (i : Nat) e u, live[i]? = some e → U[i]? = some u → e.1 = u.1 + 8 ∧ e.2 + 16 ≤ u.2

/-- Requests for which the allocator is correct. -/
def ReqOk (n : Nat) : Prop := n < 2 ^ 62 ∧ n % 8 ≠ 1

def OpOk : Op → Prop
  | .alloc n => ReqOk n
  | .realloc _ n => ReqOk n
  | _ => True

theorem liveOk_get {bs : List Blk} {live : Live} {U : List (Nat × Nat)} (hl : LiveOk bs live U) {i p n : Nat}
    (hi : live[i]? = some (p, n)) : ∃ b s, U[i]? = some (b, s) ∧ p = b + 8 ∧ n + 16 ≤ s ∧ (b, s) ∈ used 0 bs := by
  obtain ⟨hlt, -⟩ := List.getElem?_eq_some_iff.1 hi
  have hU : U[i]? = some (U[i]'(by rw [hl.len]; exact hlt)) := List.getElem?_eq_getElem _
  obtain ⟨h1, h2⟩ := hl.ok i _ _ hi hU
  refine ⟨_, _, hU, h1, h2, ?_⟩
  rw [← hl.perm.mem_iff]
  exact List.getElem_mem _

/-- The words of an allocation are the same in both heaps. -/
def Same (h h' : Heap) (e : Nat × Nat) : Prop := ∀ k, 8 * k + 8 ≤ e.2 → h'.mem (e.1 + 8 * k) = h.mem (e.1 + 8 * k)

theorem same_of_frame {h h' : Heap} {V : List (Nat × Nat)} (hf : Frame h h' V) {b s p n : Nat} (hm : (b, s) ∈ V) (hp : p = b + 8)
    (hn : n + 16 ≤ s) : Same h h' (p, n) := by
  intro k hk
  dsimp only at hk
  exact hf b s hm _ (by dsimp only; omega) (by dsimp only; omega)

theorem perm_eraseIdx {U : List (Nat × Nat)} {i : Nat} {u : Nat × Nat} (h : U[i]? = some u) : U.Perm (u :: U.eraseIdx i) := by
  obtain ⟨hlt, he⟩ := List.getElem?_eq_some_iff.1 h
  rw [← he]
  exact (List.getElem_cons_eraseIdx_perm hlt).symm

/-- Another entry of the list is in the rest. -/
theorem mem_rest {U rest V : List (Nat × Nat)} {i j : Nat} {u w : Nat × Nat} (hp : U.Perm V) (hV : V.Perm (u :: rest)) (hi : U[i]? = some u)
    (hj : U[j]? = some w) (hij : i ≠ j) : w ∈ rest := by
  have h1 : (U.eraseIdx i).Perm rest := (List.perm_cons u).1 ((perm_eraseIdx hi).symm.trans (hp.trans hV))
  rw [← h1.mem_iff]
  rcases Nat.lt_or_gt_of_ne hij with h | h
  · refine List.mem_iff_getElem?.2 ⟨j - 1, ?_⟩
    rw [List.getElem?_eraseIdx, if_neg (by omega), Nat.sub_add_cancel (by omega)]; exact hj
  · refine List.mem_iff_getElem?.2 ⟨j, ?_⟩
    rw [List.getElem?_eraseIdx, if_pos h]; exact hj

structure HInv (h : Heap) (live : Live) : Prop where
  ex : ∃ bs U, Inv h bs ∧ LiveOk bs live U

theorem hinv_init (mem : Nat → Nat) {total : Nat} (ht : total < 2 ^ 62) : HInv (init mem total) [] :=
  ⟨[], [], ⟨by intro b hb; simp at hb, trivial, rfl, Nat.zero_le _, ht, List.Perm.refl _⟩,
    ⟨List.Perm.refl _, rfl, fun i e u h => by simp at h⟩⟩

/-- What the caller sees of `mm_alloc`. -/
theorem alloc_hist {h : Heap} {live : Live} (hi : HInv h live) {n : Nat} (hn : ReqOk n) :
    (∃ e, alloc h n = some (.error e) ∧ h.total < h.top + max 32 ((n + 23) / 8 * 8)) ∨
    (∃ h' p, alloc h n = some (.ok (h', p)) ∧ HInv h' ((p, n) :: live) ∧ (∀ e ∈ live, Same h h' e) ∧ h'.total = h.total) := by
  obtain ⟨bs, U, i, l⟩ := hi.ex
  rcases alloc_spec i hn.1 hn.2 with ⟨e, h1, h2, -⟩ | ⟨h', p, h1, bs', b, s', rfl, i', u', b', f', t'⟩
  · exact Or.inl ⟨e, h1, h2⟩
  · refine Or.inr ⟨h', b + 8, h1, ⟨bs', (b, s') :: U, i', ?_, ?_, ?_⟩, ?_, t'⟩
    · exact (List.Perm.cons _ l.perm).trans u'.symm
    · simp [l.len]
    · intro j e u he hu
      cases j with
      | zero =>
        simp only [List.getElem?_cons_zero, Option.some.injEq] at he hu
        subst he; subst hu
        exact ⟨rfl, b'⟩
      | succ j =>
        rw [List.getElem?_cons_succ] at he hu
        exact l.ok j e u he hu
    · intro e he
      obtain ⟨j, hj⟩ := List.mem_iff_getElem?.1 he
      obtain ⟨p, m⟩ := e
      obtain ⟨c, t, g1, g2, g3, g4⟩ := liveOk_get l hj
      exact same_of_frame f' g4 g2 g3

theorem free_hist {h : Heap} {live : Live} (hi : HInv h live) {i p n : Nat} (hp : live[i]? = some (p, n)) :
    ∃ h', dealloc h p = some h' ∧ HInv h' (live.eraseIdx i) ∧ (∀ j e, j ≠ i → live[j]? = some e → Same h h' e) ∧ h'.total = h.total := by
  obtain ⟨bs, U, iv, l⟩ := hi.ex
  obtain ⟨b, s, hU, rfl, hs, hm⟩ := liveOk_get l hp
  obtain ⟨L, R, rfl, hb⟩ := mem_used hm
  rw [Nat.zero_add] at hb
  subst hb
  obtain ⟨h', bs', e1, i1, u1, f1, t1, -⟩ := dealloc_zip iv
  have hV : (used 0 (L ++ (s, false) :: R)).Perm ((span L, s) :: (used 0 L ++ used (span L + s) R)) := by
    rw [used_zip]; exact List.perm_middle
  refine ⟨h', e1, ⟨bs', U.eraseIdx i, i1, ?_, ?_, ?_⟩, ?_, t1⟩
  · rw [u1]
    exact (List.perm_cons (span L, s)).1 ((perm_eraseIdx hU).symm.trans (l.perm.trans hV))
  · rw [List.length_eraseIdx, List.length_eraseIdx, l.len]
  · intro j e u he hu
    rw [List.getElem?_eraseIdx] at he hu
    split at he
    · rename_i hc
      rw [if_pos hc] at hu
      exact l.ok j e u he hu
    · rename_i hc
      rw [if_neg hc] at hu
      exact l.ok (j + 1) e u he hu
  · intro j e hj he
    obtain ⟨q, m⟩ := e
    obtain ⟨c, t, g1, g2, g3, g4⟩ := liveOk_get l he
    exact same_of_frame f1 (mem_rest l.perm hV hU g1 (Ne.symm hj)) g2 g3

theorem realloc_hist {h : Heap} {live : Live} (hi : HInv h live) {i p m n : Nat} (hp : live[i]? = some (p, m)) (hn : ReqOk n) :
    (∃ e, realloc h p n = some (.error e) ∧ h.total < h.top + max 32 ((n + 23) / 8 * 8)) ∨
    (∃ h' q, realloc h p n = some (.ok (h', q)) ∧ HInv h' (live.set i (q, n)) ∧ (∀ j e, j ≠ i → live[j]? = some e → Same h h' e) ∧
      (∀ k, 8 * k + 8 ≤ m → 8 * k + 8 ≤ n → h'.mem (q + 8 * k) = h.mem (p + 8 * k)) ∧ h'.total = h.total) ∨
    (realloc h p n = none ∧ m < n ∧ ∃ h' q, alloc h n = some (.ok (h', q)) ∧ (h.total < p + n ∨ (q < p + n ∧ p < q + n))) := by
  obtain ⟨bs, U, iv, l⟩ := hi.ex
  obtain ⟨b, s, hU, rfl, hs, hm⟩ := liveOk_get l hp
  rcases realloc_spec iv hm hn.1 hn.2 with ⟨e, h1, h2⟩ | ⟨h', q, h1, bs', c, s', rest, rfl, i', hV, u', b', f', t', d'⟩ | ⟨h1, h2, h', q, h3, h4⟩
  · exact Or.inl ⟨e, h1, h2⟩
  · refine Or.inr (Or.inl ⟨h', c + 8, h1, ⟨bs', U.set i (c, s'), i', ?_, ?_, ?_⟩, ?_, ?_, t'⟩)
    · have hr : (U.eraseIdx i).Perm rest := (List.perm_cons (b, s)).1 ((perm_eraseIdx hU).symm.trans (l.perm.trans hV))
      obtain ⟨hlt, -⟩ := List.getElem?_eq_some_iff.1 hU
      exact (List.set_perm_cons_eraseIdx hlt _).trans ((List.Perm.cons _ hr).trans u'.symm)
    · simp [l.len]
    · intro j e u he hu
      rw [List.getElem?_set] at he hu
      split at he
      · rename_i hc
        rw [if_pos hc] at hu
        have h1 := (List.getElem?_eq_some_iff.1 hp).1
        have h2 := (List.getElem?_eq_some_iff.1 hU).1
        rw [if_pos h1] at he
        rw [if_pos h2] at hu
        simp only [Option.some.injEq] at he hu
        subst he; subst hu
        exact ⟨rfl, b'⟩
      · rename_i hc
        rw [if_neg hc] at hu
        exact l.ok j e u he hu
    · intro j e hj he
      obtain ⟨q, m⟩ := e
      obtain ⟨c, t, g1, g2, g3, g4⟩ := liveOk_get l he
      exact same_of_frame f' (mem_rest l.perm hV hU g1 (Ne.symm hj)) g2 g3
    · intro k k1 k2
      exact d' (8 * k) (by omega) (by omega) (by omega)
  · exact Or.inr (Or.inr ⟨h1, by omega, h', q, h3, h4⟩)

theorem write_hist {h : Heap} {live : Live} (hi : HInv h live) {i p n off v : Nat} (hp : live[i]? = some (p, n)) (ho : 8 * off + 8 ≤ n) :
    ∃ h', st h (p + 8 * off) v = some h' ∧ HInv h' live ∧ (∀ j e, j ≠ i → live[j]? = some e → Same h h' e) ∧
      (∀ k, 8 * k + 8 ≤ n → h'.mem (p + 8 * k) = if k = off then v else h.mem (p + 8 * k)) ∧ h'.total = h.total := by
  obtain ⟨bs, U, iv, l⟩ := hi.ex
  obtain ⟨b, s, hU, rfl, hs, hm⟩ := liveOk_get l hp
  obtain ⟨L, R, hbs, hb⟩ := mem_used hm
  rw [Nat.zero_add] at hb
  have h8 : b % 8 = 0 := by
    rw [hb]
    refine span_mod ?_
    have := iv.good
    rw [hbs] at this
    exact (good_append.1 this).1
  have hbd := used_bound hm
  have htop := iv.top
  have hle := iv.le
  refine ⟨{ h with mem := fun x => if x = b + 8 + 8 * off then v else h.mem x }, ?_, ⟨bs, U, ?_, l⟩, ?_, ?_, rfl⟩
  · unfold st
    rw [if_pos ⟨by omega, by omega⟩]
  · refine inv_data iv hm fun x hx => ?_
    rw [if_neg (by omega)]
  · intro j e hj he
    obtain ⟨q, m⟩ := e
    obtain ⟨c, t, g1, g2, g3, g4⟩ := liveOk_get l he
    have hpw := used_pairwise bs 0
    have hpw2 : ((b, s) :: U.eraseIdx i).Pairwise fun x y => x.1 + x.2 ≤ y.1 ∨ y.1 + y.2 ≤ x.1 :=
      List.Perm.pairwise (l.perm.symm.trans (perm_eraseIdx hU)) (hpw.imp fun h => Or.inl h) fun h => h.symm
    have hmr := mem_rest l.perm (l.perm.symm.trans (perm_eraseIdx hU)) hU g1 (Ne.symm hj)
    have hd := (List.pairwise_cons.1 hpw2).1 _ hmr
    intro k hk
    dsimp only at hk hd ⊢
    rw [if_neg (by omega)]
  · intro k hk
    dsimp only
    by_cases hc : k = off
    · rw [if_pos hc, if_pos (by omega)]
    · rw [if_neg hc, if_neg (by omega)]

theorem step_hist {h : Heap} {live : Live} (hi : HInv h live) {op : Op} (ho : OpOk op) {h' : Heap} {live' : Live}
    (he : step h live op = some (h', live')) : HInv h' live' ∧ h'.total = h.total := by
  cases op with
  | alloc n =>
    simp only [step] at he
    rcases alloc_hist hi ho with ⟨e, h1, -⟩ | ⟨h2, p, h1, i2, -, t2⟩
    · rw [h1, Option.bind_some] at he
      simp only [Option.some.injEq, Prod.mk.injEq] at he
      obtain ⟨rfl, rfl⟩ := he
      exact ⟨hi, rfl⟩
    · rw [h1, Option.bind_some] at he
      simp only [Option.some.injEq, Prod.mk.injEq] at he
      obtain ⟨rfl, rfl⟩ := he
      exact ⟨i2, t2⟩
  | free i =>
    simp only [step] at he
    cases hp : live[i]? with
    | none =>
      rw [hp] at he
      simp only [Option.some.injEq, Prod.mk.injEq] at he
      obtain ⟨rfl, rfl⟩ := he
      exact ⟨hi, rfl⟩
    | some e =>
      obtain ⟨p, n⟩ := e
      obtain ⟨h2, h1, i2, -, t2⟩ := free_hist hi hp
      rw [hp] at he
      dsimp only at he
      rw [h1, Option.bind_some] at he
      simp only [Option.some.injEq, Prod.mk.injEq] at he
      obtain ⟨rfl, rfl⟩ := he
      exact ⟨i2, t2⟩
  | realloc i n =>
    simp only [step] at he
    cases hp : live[i]? with
    | none =>
      rw [hp] at he
      simp only [Option.some.injEq, Prod.mk.injEq] at he
      obtain ⟨rfl, rfl⟩ := he
      exact ⟨hi, rfl⟩
    | some e =>
      obtain ⟨p, m⟩ := e
      rw [hp] at he
      dsimp only at he
      by_cases hz : n = 0
      · obtain ⟨h2, h1, i2, -, t2⟩ := free_hist hi hp
        rw [if_pos hz, h1, Option.bind_some] at he
        simp only [Option.some.injEq, Prod.mk.injEq] at he
        obtain ⟨rfl, rfl⟩ := he
        exact ⟨i2, t2⟩
      · rw [if_neg hz] at he
        rcases realloc_hist hi hp ho with ⟨e, h1, -⟩ | ⟨h2, q, h1, i2, -, -, t2⟩ | ⟨h1, -⟩
        · rw [h1, Option.bind_some] at he
          simp only [Option.some.injEq, Prod.mk.injEq] at he
          obtain ⟨rfl, rfl⟩ := he
          exact ⟨hi, rfl⟩
        · rw [h1, Option.bind_some] at he
          simp only [Option.some.injEq, Prod.mk.injEq] at he
          obtain ⟨rfl, rfl⟩ := he
          exact ⟨i2, t2⟩
        · rw [h1] at he; simp at he
  | write i off v =>
    simp only [step] at he
    cases hp : live[i]? with
    | none =>
      rw [hp] at he
      simp only [Option.some.injEq, Prod.mk.injEq] at he
      obtain ⟨rfl, rfl⟩ := he
      exact ⟨hi, rfl⟩
    | some e =>
      obtain ⟨p, n⟩ := e
      rw [hp] at he
      dsimp only at he
      by_cases hc : 8 * off + 8 ≤ n
      · obtain ⟨h2, h1, i2, -, -, t2⟩ := write_hist hi hp hc (v := v)
        rw [if_pos hc, h1, Option.bind_some] at he
        simp only [Option.some.injEq, Prod.mk.injEq] at he
        obtain ⟨rfl, rfl⟩ := he
        exact ⟨i2, t2⟩
      · rw [if_neg hc] at he
        simp only [Option.some.injEq, Prod.mk.injEq] at he
        obtain ⟨rfl, rfl⟩ := he
        exact ⟨hi, rfl⟩

theorem run_hist {ops : List Op} : ∀ {h : Heap} {live : Live}, HInv h live → (∀ op ∈ ops, OpOk op) → ∀ {h' live'},
    run h live ops = some (h', live') → HInv h' live' ∧ h'.total = h.total := by
  induction ops with
  | nil =>
    intro h live hi _ h' live' he
    simp only [run, Option.some.injEq, Prod.mk.injEq] at he
    obtain ⟨rfl, rfl⟩ := he
    exact ⟨hi, rfl⟩
  | cons op ops ih =>
    intro h live hi ho h' live' he
    simp only [run] at he
    cases hs : step h live op with
    | none => rw [hs] at he; simp at he
    | some r =>
      obtain ⟨h2, l2⟩ := r
      rw [hs, Option.bind_some] at he
      have h1 := step_hist hi (ho op List.mem_cons_self) hs
      have h3 := ih h1.1 (fun o hm => ho o (List.mem_cons_of_mem _ hm)) he
      exact ⟨h3.1, h3.2.trans h1.2⟩

/-- Live allocations are apart from each other and inside of the arena. -/
theorem hinv_apart {h : Heap} {live : Live} (hi : HInv h live) {i j p n q m : Nat} (hij : i ≠ j) (h1 : live[i]? = some (p, n))
    (h2 : live[j]? = some (q, m)) : p + n + 16 ≤ q ∨ q + m + 16 ≤ p := by
  obtain ⟨bs, U, iv, l⟩ := hi.ex
  obtain ⟨b, s, hU, rfl, hs, hm⟩ := liveOk_get l h1
  obtain ⟨c, t, hU2, rfl, ht, hm2⟩ := liveOk_get l h2
  have hpw := used_pairwise bs 0
  have hpw2 : ((b, s) :: U.eraseIdx i).Pairwise fun x y => x.1 + x.2 ≤ y.1 ∨ y.1 + y.2 ≤ x.1 :=
    List.Perm.pairwise (l.perm.symm.trans (perm_eraseIdx hU)) (hpw.imp fun h => Or.inl h) fun h => h.symm
  have hmr := mem_rest l.perm (l.perm.symm.trans (perm_eraseIdx hU)) hU hU2 hij
  have hd := (List.pairwise_cons.1 hpw2).1 _ hmr
  dsimp only at hd
  omega

theorem hinv_inside {h : Heap} {live : Live} (hi : HInv h live) {i p n : Nat} (h1 : live[i]? = some (p, n)) :
    8 ≤ p ∧ p % 8 = 0 ∧ p + n + 8 ≤ h.top ∧ h.top ≤ h.total := by
  obtain ⟨bs, U, iv, l⟩ := hi.ex
  obtain ⟨b, s, hU, rfl, hs, hm⟩ := liveOk_get l h1
  obtain ⟨L, R, hbs, hb⟩ := mem_used hm
  rw [Nat.zero_add] at hb
  have h8 : b % 8 = 0 := by
    rw [hb]
    refine span_mod ?_
    have := iv.good
    rw [hbs] at this
    exact (good_append.1 this).1
  have hbd := used_bound hm
  have htop := iv.top
  have hle := iv.le
  omega

end Sdsl.Huge
