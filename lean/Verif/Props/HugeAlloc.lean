/-
  C49: the hugepage allocator.
-/
import Verif.HugeHist

namespace Sdsl.Props

open Sdsl

/-- The states a client can get to by valid calls, with an arena of `total` bytes of any contents and requests `n < 2^62` with
`n % 8 ≠ 1`. (`memory_manager::resize` requests multiples of 8.) -/
def HugeReachable (total : Nat) (h : Huge.Heap) (live : Huge.Live) : Prop :=
  ∃ mem ops, (∀ op ∈ ops, Huge.OpOk op) ∧ Huge.run (Huge.init mem total) [] ops = some (h, live)

theorem hugeInv {total : Nat} (ht : total < 2 ^ 62) {h : Huge.Heap} {live : Huge.Live} (hr : HugeReachable total h live) :
    Huge.HInv h live ∧ h.total = total := by
  obtain ⟨mem, ops, h1, h2⟩ := hr
  exact Huge.run_hist (Huge.hinv_init mem ht) h1 h2

/-- C49 for requests `n % 8 ≠ 1`: after any history of alloc, free, realloc and client writes, the live allocations are pairwise
disjoint (with room for the tags in between), aligned, and inside of the used part of the arena. Missing: requests `n % 8 = 1`, and
the case that `mm_realloc` copies from or to a region where `memcpy` is undefined; see the negative theorems. -/
theorem C49_disjoint_partial {total : Nat} (ht : total < 2 ^ 62) {h : Huge.Heap} {live : Huge.Live} (hr : HugeReachable total h live) :
    (∀ (i j : Nat) p n q m, i ≠ j → live[i]? = some (p, n) → live[j]? = some (q, m) → p + n + 16 ≤ q ∨ q + m + 16 ≤ p) ∧
    (∀ (i : Nat) p n, live[i]? = some (p, n) → 8 ≤ p ∧ p % 8 = 0 ∧ p + n + 8 ≤ h.top) ∧ h.top ≤ total := by
  obtain ⟨hi, htot⟩ := hugeInv ht hr
  refine ⟨fun i j p n q m hij h1 h2 => Huge.hinv_apart hi hij h1 h2, fun i p n h1 => ?_, ?_⟩
  · have := Huge.hinv_inside hi h1
    omega
  · obtain ⟨bs, U, iv, l⟩ := hi.ex
    rw [← htot]; exact iv.le

/-- The blocks tile the used region: there is a list of blocks (size, free flag) whose sizes add up to the used size, whose headers and
footers are in memory, whose free members are exactly the elements of the free set (with the key `size|1`), and whose used members are
exactly the live allocations. -/
theorem C49_tiling_partial {total : Nat} (ht : total < 2 ^ 62) {h : Huge.Heap} {live : Huge.Live} (hr : HugeReachable total h live) :
    ∃ bs : List (Nat × Bool),
      (∀ b ∈ bs, b.1 % 8 = 0 ∧ 16 ≤ b.1) ∧ h.top = (bs.map Prod.fst).sum ∧
      (∀ (i : Nat) s f, bs[i]? = some (s, f) →
        h.mem ((bs.take i).map Prod.fst).sum = s + (if f then 1 else 0) ∧
        h.mem (((bs.take i).map Prod.fst).sum + s - 8) = s + (if f then 1 else 0) ∧
        (f = true ↔ (s + 1, ((bs.take i).map Prod.fst).sum) ∈ h.free) ∧
        (f = false ↔ ∃ n, (((bs.take i).map Prod.fst).sum + 8, n) ∈ live)) ∧
      h.free.length + live.length = bs.length := by
  obtain ⟨hi, htot⟩ := hugeInv ht hr
  obtain ⟨bs, U, iv, l⟩ := hi.ex
  have hsp : ∀ l : List (Nat × Bool), Huge.span l = (l.map Prod.fst).sum := by
    intro l
    induction l with
    | nil => rfl
    | cons x xs ih => simp [Huge.span, ih]
  refine ⟨bs, iv.good, by rw [iv.top, hsp], ?_, ?_⟩
  · intro i s f hb
    obtain ⟨hlt, he⟩ := List.getElem?_eq_some_iff.1 hb
    have hz : bs = bs.take i ++ (s, f) :: bs.drop (i + 1) := by
      rw [← he, ← List.drop_eq_getElem_cons hlt, List.take_append_drop]
    rw [← hsp]
    obtain ⟨L, hL⟩ : ∃ L, L = bs.take i := ⟨_, rfl⟩
    obtain ⟨R, hR⟩ : ∃ R, R = bs.drop (i + 1) := ⟨_, rfl⟩
    rw [← hL, ← hR] at hz
    rw [← hL]
    have htags := iv.tags
    rw [hz, Huge.tags_append, Nat.zero_add] at htags
    have hg := iv.good
    rw [hz] at hg
    have hgc := (Huge.good_cons.1 (Huge.good_append.1 hg).2)
    -- the offsets of blocks are different
    have off : ∀ a f', (∃ L' R' s', bs = L' ++ (s', f') :: R' ∧ a = Huge.span L') → a = Huge.span L → f' = f := by
      rintro a f' ⟨L', R', s', hb', ha⟩ hae
      have key : ∀ (A B : List (Nat × Bool)) x y (C D : List (Nat × Bool)), A ++ x :: C = B ++ y :: D → Huge.Good (A ++ x :: C) →
          Huge.span A = Huge.span B → x = y := by
        intro A
        induction A with
        | nil =>
          intro B x y C D h1 h2 h3
          cases B with
          | nil => simp only [List.nil_append, List.cons.injEq] at h1; exact h1.1
          | cons z B =>
            simp only [List.nil_append, List.cons_append, List.cons.injEq] at h1
            have := (h2 x (by simp)).2
            rw [h1.1] at this
            simp only [Huge.span] at h3; omega
        | cons w A ih =>
          intro B x y C D h1 h2 h3
          cases B with
          | nil =>
            have := (h2 w (by simp)).2
            simp only [Huge.span] at h3; omega
          | cons z B =>
            simp only [List.cons_append, List.cons.injEq] at h1
            simp only [Huge.span, h1.1] at h3
            exact ih B x y C D h1.2 (fun b hb => h2 b (by simp only [List.cons_append, List.mem_cons]; exact Or.inr hb)) (by omega)
      have := key L' L _ _ R' R (by rw [← hb', ← hz]) (by rw [← hb']; exact iv.good) (by omega)
      simpa using congrArg Prod.snd this
    refine ⟨htags.2.1, htags.2.2.1, ⟨?_, ?_⟩, ⟨?_, ?_⟩⟩
    · rintro rfl
      rw [iv.perm.mem_iff, hz, Huge.frees_append, Nat.zero_add]
      simp [Huge.frees]
    · intro hm
      rw [iv.perm.mem_iff] at hm
      obtain ⟨L', R', s', e1, e2, -⟩ := Huge.mem_frees hm
      exact (off _ true ⟨L', R', s', e1, rfl⟩ (by omega)).symm
    · rintro rfl
      have hm : (Huge.span L, s) ∈ Huge.used 0 bs := by rw [hz, Huge.used_zip]; simp
      rw [← l.perm.mem_iff] at hm
      obtain ⟨j, hj⟩ := List.mem_iff_getElem?.1 hm
      obtain ⟨jlt, -⟩ := List.getElem?_eq_some_iff.1 hj
      have hlj : live[j]? = some (live[j]'(by rw [← l.len]; exact jlt)) := List.getElem?_eq_getElem _
      have := l.ok j _ _ hlj hj
      refine ⟨(live[j]'(by rw [← l.len]; exact jlt)).2, List.mem_iff_getElem?.2 ⟨j, ?_⟩⟩
      rw [hlj]
      exact congrArg some (Prod.ext this.1 rfl)
    · rintro ⟨n, hm⟩
      obtain ⟨j, hj⟩ := List.mem_iff_getElem?.1 hm
      obtain ⟨b, t, -, g2, -, g4⟩ := Huge.liveOk_get l hj
      obtain ⟨L', R', e1, e2⟩ := Huge.mem_used g4
      exact (off _ false ⟨L', R', t, e1, rfl⟩ (by omega)).symm
  · rw [← l.len, l.perm.length_eq, iv.perm.length_eq]
    have : ∀ (bs : List (Nat × Bool)) o, (Huge.frees o bs).length + (Huge.used o bs).length = bs.length := by
      intro bs
      induction bs with
      | nil => intro o; rfl
      | cons x xs ih =>
        intro o
        have := ih (o + x.1)
        simp only [Huge.frees, Huge.used]
        split <;> simp <;> omega
    exact this bs 0

/-- `mm_alloc` is defined in every reachable state. It throws only if the request does not fit behind the used region; otherwise the new
allocation is added, and the contents of all other ones stay. -/
theorem C49_alloc {total : Nat} (ht : total < 2 ^ 62) {h : Huge.Heap} {live : Huge.Live} (hr : HugeReachable total h live) {n : Nat}
    (hn : n < 2 ^ 62) (h1 : n % 8 ≠ 1) :
    (∃ e, Huge.alloc h n = some (.error e) ∧ total < h.top + max 32 ((n + 23) / 8 * 8)) ∨
    (∃ h' p, Huge.alloc h n = some (.ok (h', p)) ∧ HugeReachable total h' ((p, n) :: live) ∧
      ∀ e ∈ live, ∀ k, 8 * k + 8 ≤ e.2 → h'.mem (e.1 + 8 * k) = h.mem (e.1 + 8 * k)) := by
  obtain ⟨hi, htot⟩ := hugeInv ht hr
  rcases Huge.alloc_hist hi ⟨hn, h1⟩ with ⟨e, a, b⟩ | ⟨h', p, a, b, c, d⟩
  · exact Or.inl ⟨e, a, by omega⟩
  · refine Or.inr ⟨h', p, a, ?_, c⟩
    obtain ⟨mem, ops, o1, o2⟩ := hr
    refine ⟨mem, ops ++ [.alloc n], ?_, ?_⟩
    · intro op hm
      rcases List.mem_append.1 hm with hm | hm
      · exact o1 op hm
      · rw [List.mem_singleton] at hm; subst hm; exact ⟨hn, h1⟩
    · have key : ∀ (ops : List Huge.Op) h0 l0, Huge.run h0 l0 ops = some (h, live) →
          Huge.run h0 l0 (ops ++ [.alloc n]) = some (h', (p, n) :: live) := by
        intro ops
        induction ops with
        | nil =>
          intro h0 l0 he
          simp only [Huge.run, Option.some.injEq, Prod.mk.injEq] at he
          obtain ⟨rfl, rfl⟩ := he
          simp only [List.nil_append, Huge.run, Huge.step, a, Option.bind_some]
        | cons op ops ih =>
          intro h0 l0 he
          simp only [Huge.run] at he
          simp only [List.cons_append, Huge.run]
          cases hs : Huge.step h0 l0 op with
          | none => rw [hs] at he; simp at he
          | some r =>
            rw [hs, Option.bind_some] at he
            rw [Option.bind_some]
            exact ih _ _ he
      exact key ops _ _ o2

/-- `mm_free` of a live allocation is defined in every reachable state and keeps the contents of the other ones. -/
theorem C49_free {total : Nat} (ht : total < 2 ^ 62) {h : Huge.Heap} {live : Huge.Live} (hr : HugeReachable total h live) {i p n : Nat}
    (hp : live[i]? = some (p, n)) :
    ∃ h', Huge.dealloc h p = some h' ∧ Huge.step h live (.free i) = some (h', live.eraseIdx i) ∧
      ∀ (j : Nat) e, j ≠ i → live[j]? = some e → ∀ k, 8 * k + 8 ≤ e.2 → h'.mem (e.1 + 8 * k) = h.mem (e.1 + 8 * k) := by
  obtain ⟨hi, htot⟩ := hugeInv ht hr
  obtain ⟨h', a, b, c, d⟩ := Huge.free_hist hi hp
  refine ⟨h', a, ?_, c⟩
  simp only [Huge.step, hp, a, Option.bind_some]

/-- `mm_realloc` of a live allocation: it throws only if the request does not fit behind the used region; otherwise the contents of the
other allocations stay, and the new allocation starts with the words of the old one — or the data are copied by a `memcpy` of the new
size whose source reaches behind the arena or overlaps the destination. -/
theorem C49_realloc {total : Nat} (ht : total < 2 ^ 62) {h : Huge.Heap} {live : Huge.Live} (hr : HugeReachable total h live)
    {i p m n : Nat} (hp : live[i]? = some (p, m)) (hn : n < 2 ^ 62) (h1 : n % 8 ≠ 1) :
    (∃ e, Huge.realloc h p n = some (.error e) ∧ total < h.top + max 32 ((n + 23) / 8 * 8)) ∨
    (∃ h' q, Huge.realloc h p n = some (.ok (h', q)) ∧
      (∀ (j : Nat) e, j ≠ i → live[j]? = some e → ∀ k, 8 * k + 8 ≤ e.2 → h'.mem (e.1 + 8 * k) = h.mem (e.1 + 8 * k)) ∧
      (∀ k, 8 * k + 8 ≤ m → 8 * k + 8 ≤ n → h'.mem (q + 8 * k) = h.mem (p + 8 * k))) ∨
    (Huge.realloc h p n = none ∧ m < n ∧ ∃ h' q, Huge.alloc h n = some (.ok (h', q)) ∧
      (total < p + n ∨ (q < p + n ∧ p < q + n))) := by
  obtain ⟨hi, htot⟩ := hugeInv ht hr
  rcases Huge.realloc_hist hi hp ⟨hn, h1⟩ with ⟨e, a, b⟩ | ⟨h', q, a, b, c, d, e⟩ | ⟨a, b, h', q, c, d⟩
  · exact Or.inl ⟨e, a, by omega⟩
  · exact Or.inr (Or.inl ⟨h', q, a, c, d⟩)
  · exact Or.inr (Or.inr ⟨a, b, h', q, c, by omega⟩)

/-- Shrinking and keeping the size are always defined. -/
theorem C49_realloc_shrink {total : Nat} (ht : total < 2 ^ 62) {h : Huge.Heap} {live : Huge.Live} (hr : HugeReachable total h live)
    {i p m n : Nat} (hp : live[i]? = some (p, m)) (h1 : n % 8 ≠ 1) (hle : n ≤ m) (hm : m < 2 ^ 62) :
    (∃ e, Huge.realloc h p n = some (.error e)) ∨ (∃ h' q, Huge.realloc h p n = some (.ok (h', q)) ∧
      (∀ k, 8 * k + 8 ≤ n → h'.mem (q + 8 * k) = h.mem (p + 8 * k))) := by
  rcases C49_realloc ht hr hp (n := n) (by omega) h1 with ⟨e, a, b⟩ | ⟨h', q, a, c, d⟩ | ⟨a, b, -⟩
  · exact Or.inl ⟨e, a⟩
  · exact Or.inr ⟨h', q, a, fun k hk => d k (by omega) hk⟩
  · omega

/-- Writing a word into a live allocation changes that word only, and in no other allocation. -/
theorem C49_write {total : Nat} (ht : total < 2 ^ 62) {h : Huge.Heap} {live : Huge.Live} (hr : HugeReachable total h live)
    {i p n off v : Nat} (hp : live[i]? = some (p, n)) (ho : 8 * off + 8 ≤ n) :
    ∃ h', Huge.step h live (.write i off v) = some (h', live) ∧
      (∀ (j : Nat) e, j ≠ i → live[j]? = some e → ∀ k, 8 * k + 8 ≤ e.2 → h'.mem (e.1 + 8 * k) = h.mem (e.1 + 8 * k)) ∧
      (∀ k, 8 * k + 8 ≤ n → h'.mem (p + 8 * k) = if k = off then v else h.mem (p + 8 * k)) := by
  obtain ⟨hi, htot⟩ := hugeInv ht hr
  obtain ⟨h', a, b, c, d, e⟩ := Huge.write_hist hi hp ho (v := v)
  refine ⟨h', ?_, c, d⟩
  simp only [Huge.step, hp, if_pos ho, a, Option.bind_some]

/-- A history with coalescing in both directions, splitting, extension of the last block, in-place and moving `mm_realloc`. -/
example : (Huge.run (Huge.init (fun _ => 0) 4096) []
      [.alloc 64, .alloc 100, .alloc 200, .alloc 8, .write 3 3 77, .free 2, .realloc 2 120, .alloc 24, .free 1, .alloc 500, .realloc 3 40,
        .free 2, .realloc 0 2000]).map (fun r => (r.2, r.1.top, r.1.free, r.1.mem 32))
    = some ([(496, 2000), (456, 24), (8, 40)], 2504, [(393, 56)], 77) := by decide +kernel

/-- C49 does not hold for requests `n` with `n % 8 = 1`: the keys of the free set contain the free flag, so that a request of 17 bytes
gets a block with 16 bytes of data, whose footer is inside of the allocation. -/
theorem C49_odd_request_overlaps_footer :
    ∃ mem ops, (Huge.run (Huge.init mem 4096) [] ops).map (fun r => (r.2, Huge.dataSize r.1 0, r.1.mem 24)) =
      some ([(8, 17), (40, 8)], some 16, 32) :=
  ⟨fun _ => 0, [.alloc 16, .alloc 8, .free 1, .alloc 17], by decide +kernel⟩

/-- If the block behind an allocation is free, too small and the last one, `mm_alloc` extends it, and the `memcpy` of `mm_realloc`
copies overlapping regions: undefined behaviour. -/
theorem C49_realloc_overlapping_copy :
    ∃ mem ops, (∀ op ∈ ops, Huge.OpOk op) ∧ Huge.run (Huge.init mem 4096) [] ops = none ∧
      (Huge.run (Huge.init mem 4096) [] (ops.take 3)).map Prod.snd = some [(8, 64)] ∧ ops.drop 3 = [.realloc 0 200] := by
  refine ⟨fun _ => 0, [.alloc 64, .alloc 64, .free 0, .realloc 0 200], ?_, by
    have : (Huge.run (Huge.init (fun _ => 0) 4096) [] [.alloc 64, .alloc 64, .free 0, .realloc 0 200]).isNone = true := by decide +kernel
    simpa using this, by decide +kernel, rfl⟩
  intro op hm
  simp only [List.mem_cons, List.not_mem_nil, or_false] at hm
  rcases hm with rfl | rfl | rfl | rfl
  · exact ⟨by decide, by decide⟩
  · exact ⟨by decide, by decide⟩
  · trivial
  · exact ⟨by decide, by decide⟩

/-- The `memcpy` of `mm_realloc` reads the new size from the old block: here behind the end of the arena (2104 + 2048 > 4096), where
the new block is apart from the old one. -/
theorem C49_realloc_reads_behind_arena :
    ∃ mem ops, (∀ op ∈ ops, Huge.OpOk op) ∧ Huge.run (Huge.init mem 4096) [] ops = none ∧
      (Huge.run (Huge.init mem 4096) [] (ops.take 5)).map (fun r => (r.2, (Huge.alloc r.1 2048).map fun a => a.toOption.map Prod.snd)) =
        some ([(3024, 8), (2104, 900), (2072, 8)], some (some 8)) ∧ ops.drop 5 = [.realloc 1 2048] := by
  refine ⟨fun _ => 0, [.alloc 2048, .alloc 8, .alloc 900, .alloc 8, .free 3, .realloc 1 2048], ?_, by
    have : (Huge.run (Huge.init (fun _ => 0) 4096) [] [.alloc 2048, .alloc 8, .alloc 900, .alloc 8, .free 3, .realloc 1 2048]).isNone = true := by
      decide +kernel
    simpa using this, by decide +kernel, rfl⟩
  intro op hm
  simp only [List.mem_cons, List.not_mem_nil, or_false] at hm
  rcases hm with rfl | rfl | rfl | rfl | rfl | rfl
  · exact ⟨by decide, by decide⟩
  · exact ⟨by decide, by decide⟩
  · exact ⟨by decide, by decide⟩
  · exact ⟨by decide, by decide⟩
  · trivial
  · exact ⟨by decide, by decide⟩

end Sdsl.Props
