/-
  The alphabet strategies `byte_alphabet`, `succinct_byte_alphabet` and `int_alphabet` map the symbols of a text to 0 … sigma-1 in order and hold the partial sums of the counts.
-/
import Verif.CsaSample

namespace Sdsl.Csa

/-- The symbols of `L` below `i`, in order. -/
def dsUpto (L : List Nat) (i : Nat) : List Nat := (List.range i).filter (fun c => decide (c ∈ L))

theorem dsUpto_succ (L : List Nat) (i : Nat) : dsUpto L (i + 1) = if i ∈ L then dsUpto L i ++ [i] else dsUpto L i := by
  rw [dsUpto, List.range_succ, List.filter_append]
  by_cases e : i ∈ L <;> simp [dsUpto, e]

theorem dsUpto_sorted (L : List Nat) (i : Nat) : (dsUpto L i).Pairwise (· < ·) := List.Pairwise.filter _ List.pairwise_lt_range

theorem dsUpto_mem {L : List Nat} {i c : Nat} : c ∈ dsUpto L i ↔ c < i ∧ c ∈ L := by
  rw [dsUpto, List.mem_filter, List.mem_range]; simp

theorem dsUpto_le (L : List Nat) (i : Nat) : (dsUpto L i).length ≤ i := by
  have := List.length_filter_le (fun c => decide (c ∈ L)) (List.range i)
  rw [List.length_range] at this
  exact this

theorem dsUpto_isDs {L : List Nat} {n : Nat} (h : ∀ c ∈ L, c < n) : IsDs (dsUpto L n) L := by
  refine ⟨dsUpto_sorted L n, fun c => ?_⟩
  rw [dsUpto_mem]
  exact ⟨fun h => h.2, fun hc => ⟨h c hc, hc⟩⟩

/-- Partial sums of the counts. -/
def psum (L ds : List Nat) (k : Nat) : Nat := ((ds.take k).map (fun c => L.count c)).sum

theorem psum_succ {L ds : List Nat} {k : Nat} (h : k < ds.length) : psum L ds (k + 1) = psum L ds k + L.count ds[k] := by
  rw [psum, psum, List.take_succ_eq_append_getElem h, List.map_append, List.sum_append]; simp

theorem psum_le {L ds : List Nat} (hd : IsDs ds L) {k : Nat} : psum L ds k ≤ L.length := by
  rw [hd.length_eq, psum]
  rw [← List.take_append_drop k (ds.map _), List.sum_append, List.map_take]
  omega

theorem set_get? {α : Type} {l : List α} {i : Nat} {x : α} (h : i < l.length) (t : Nat) : (l.set i x)[t]? = if t = i then some x else l[t]? := by
  rw [List.getElem?_set]
  by_cases e : i = t
  · subst e; rw [if_pos rfl, if_pos h, if_pos rfl]
  · rw [if_neg e, if_neg (fun h => e h.symm)]

theorem countSyms_spec {n : Nat} : ∀ (L pre D : List Nat), (∀ c ∈ L, c < n) → n ≤ D.length → (∀ c, c < D.length → D[c]? = some (pre.count c)) → pre.length + L.length < 2 ^ 64 →
    ∃ D', countSyms L D = some D' ∧ D'.length = D.length ∧ ∀ c, c < D.length → D'[c]? = some ((pre ++ L).count c) := by
  intro L
  induction L with
  | nil => intro pre D _ _ h3 _; exact ⟨D, rfl, rfl, by simpa using h3⟩
  | cons a L ih =>
    intro pre D h1 h2 h3 h4
    have ha := h1 a (by simp)
    rw [List.length_cons] at h4
    have hc := List.count_le_length (a := a) (l := pre)
    obtain ⟨D', g1, g2, g3⟩ := ih (pre ++ [a]) (D.set a ((pre.count a + 1) % 2 ^ 64)) (fun c hc => h1 c (by simp [hc])) (by rw [List.length_set]; exact h2) (by
      intro c hc
      rw [List.length_set] at hc
      rw [set_get? (by omega)]
      by_cases e : c = a
      · subst e; rw [if_pos rfl, List.count_append, List.count_singleton_self, Nat.mod_eq_of_lt (by omega)]
      · rw [if_neg e, h3 c hc, List.count_append, List.count_singleton, if_neg (by simpa using fun h => e h.symm)]; rfl) (by rw [List.length_append, List.length_singleton]; omega)
    rw [List.length_set] at g2 g3
    refine ⟨D', ?_, g2, fun c hc => ?_⟩
    · rw [countSyms, h3 a (by omega), sbind, g1]
    · rw [g3 c hc, List.append_assoc]; rfl

theorem count_ne_zero {L : List Nat} {c : Nat} : L.count c ≠ 0 ↔ c ∈ L := by
  rw [Ne, List.count_eq_zero, Classical.not_not]

/-! ### `byte_alphabet` -/

/-- State of the compaction loop before symbol `i`. -/
structure BAInv (L : List Nat) (i : Nat) (s : BA) : Prop where
  sigma : s.sigma = (dsUpto L i).length
  l1 : s.char2comp.length = 256
  l2 : s.comp2char.length = 256
  l3 : s.C.length = 257
  c2c : ∀ c, c < 256 → s.char2comp[c]? = some (if c ∈ dsUpto L i then (dsUpto L c).length else 0)
  inv : ∀ k (h : k < (dsUpto L i).length), s.comp2char[k]? = some (dsUpto L i)[k]
  cl : ∀ k (h : k < (dsUpto L i).length), s.C[k]? = some (L.count (dsUpto L i)[k])
  cr : ∀ c, i ≤ c → c < 257 → s.C[c]? = some (L.count c)

theorem compactLoop_spec {L : List Nat} : ∀ (k i : Nat) (s : BA), i + k = 256 → BAInv L i s → ∃ s', compactLoop k i s = some s' ∧ BAInv L 256 s' := by
  intro k
  induction k with
  | zero => intro i s h1 h2; rw [Nat.add_zero] at h1; subst h1; exact ⟨s, rfl, h2⟩
  | succ k ih =>
    intro i s h1 h2
    have hle := dsUpto_le L i
    have hds := dsUpto_succ L i
    rw [compactLoop, h2.cr i (Nat.le_refl _) (by omega), sbind]
    by_cases e : i ∈ L
    · rw [if_pos (count_ne_zero.2 e)]
      rw [if_pos e] at hds
      have hsig := h2.sigma
      have hl1 := h2.l1
      have hl2 := h2.l2
      have hl3 := h2.l3
      rw [setList_of_lt (by omega), sbind, setList_of_lt (by omega), sbind, setList_of_lt (by omega), sbind]
      apply ih (i + 1) _ (by omega)
      have hlen : (dsUpto L (i + 1)).length = (dsUpto L i).length + 1 := by rw [hds, List.length_append, List.length_singleton]
      refine ⟨by rw [hlen]; dsimp only; omega, by simpa using hl1, by simpa using hl2, by simpa using hl3, fun c hc => ?_, fun k hk => ?_, fun k hk => ?_, fun c hc1 hc2 => ?_⟩
      · dsimp only
        rw [set_get? (by omega)]
        by_cases ec : c = i
        · subst ec
          rw [if_pos rfl, if_pos (by rw [hds]; simp), hsig, Nat.mod_eq_of_lt (by omega)]
        · rw [if_neg ec, h2.c2c c hc]
          have : c ∈ dsUpto L (i + 1) ↔ c ∈ dsUpto L i := by rw [hds, List.mem_append, List.mem_singleton]; simp [ec]
          simp only [this]
      · dsimp only
        rw [set_get? (by omega)]
        by_cases ek : k = s.sigma
        · rw [if_pos ek, Nat.mod_eq_of_lt (by omega)]
          simp [hds, ek, hsig]
        · have hk' : k < (dsUpto L i).length := by omega
          rw [if_neg ek, h2.inv k hk']
          simp [hds, List.getElem_append_left, hk']
      · dsimp only
        rw [set_get? (by omega)]
        by_cases ek : k = s.sigma
        · rw [if_pos ek]
          simp [hds, ek, hsig]
        · have hk' : k < (dsUpto L i).length := by omega
          rw [if_neg ek, h2.cl k hk']
          simp [hds, List.getElem_append_left, hk']
      · dsimp only
        rw [set_get? (by omega), if_neg (by omega), h2.cr c (by omega) hc2]
    · rw [if_neg (fun h => e (count_ne_zero.1 h))]
      rw [if_neg e] at hds
      apply ih (i + 1) _ (by omega)
      refine ⟨by rw [hds]; exact h2.sigma, h2.l1, h2.l2, h2.l3, by rw [hds]; exact h2.c2c, ?_, ?_, fun c hc1 hc2 => h2.cr c (by omega) hc2⟩
      · simp only [hds]; exact h2.inv
      · simp only [hds]; exact h2.cl

theorem shiftLoop_spec : ∀ (i : Nat) (C : List Nat), i < C.length → ∃ R, shiftLoop i C = some R ∧ R.length = C.length ∧ ∀ t, R[t]? = if 0 < t ∧ t ≤ i then C[t - 1]? else C[t]? := by
  intro i
  induction i with
  | zero => intro C _; exact ⟨C, rfl, rfl, fun t => by rw [if_neg (by omega)]⟩
  | succ i ih =>
    intro C h
    obtain ⟨R, r1, r2, r3⟩ := ih (C.set (i + 1) C[i]) (by rw [List.length_set]; omega)
    refine ⟨R, ?_, by rw [r2, List.length_set], fun t => ?_⟩
    · rw [shiftLoop, List.getElem?_eq_getElem (by omega), sbind, setList_of_lt h, sbind, r1]
    · rw [r3 t, set_get? h, set_get? h]
      by_cases e : t = i + 1
      · subst e
        rw [if_neg (by omega), if_pos rfl, if_pos ⟨by omega, by omega⟩, List.getElem?_eq_getElem (by omega)]
        rfl
      · by_cases e2 : 0 < t ∧ t ≤ i
        · rw [if_pos e2, if_neg (by omega), if_pos ⟨e2.1, by omega⟩]
        · rw [if_neg e2, if_neg e, if_neg (by omega)]

theorem sumLoop_spec {L ds : List Nat} (hd : IsDs ds L) (hn : L.length < 2 ^ 64) : ∀ (k i : Nat) (C : List Nat), i + k = ds.length + 1 → 0 < i → C.length = ds.length + 1 →
    (∀ t, t < i → C[t]? = some (psum L ds t)) → (∀ t (h : t < ds.length), i ≤ t + 1 → C[t + 1]? = some (L.count ds[t])) →
    ∃ R, sumLoop k i C = some R ∧ ∀ t, t ≤ ds.length → R[t]? = some (psum L ds t) := by
  intro k
  induction k with
  | zero => intro i C h1 h2 h3 h4 h5; exact ⟨C, rfl, fun t ht => h4 t (by omega)⟩
  | succ k ih =>
    intro i C h1 h2 h3 h4 h5
    obtain ⟨j, rfl⟩ : ∃ j, i = j + 1 := ⟨i - 1, by omega⟩
    have hj : j < ds.length := by omega
    have hs := psum_succ (L := L) hj
    have hle := psum_le hd (k := j + 1)
    rw [sumLoop, h5 j hj (Nat.le_refl _), sbind, Nat.add_sub_cancel, h4 j (by omega), sbind, setList_of_lt (by omega), sbind]
    refine ih (j + 1 + 1) _ (by omega) (by omega) (by rw [List.length_set]; exact h3) (fun t ht => ?_) (fun t ht ht2 => ?_)
    · rw [set_get? (by omega)]
      by_cases e : t = j + 1
      · rw [if_pos e, e, Nat.mod_eq_of_lt (by omega), hs, Nat.add_comm]
      · rw [if_neg e, h4 t (by omega)]
    · rw [set_get? (by omega), if_neg (by omega), h5 t ht (by omega)]

theorem dsUpto_getElem {L : List Nat} {n k : Nat} (h : k < (dsUpto L n).length) : (dsUpto L (dsUpto L n)[k]).length = k ∧ dsUpto L n = dsUpto L (dsUpto L n)[k] ++ (dsUpto L n).drop k := by
  induction n with
  | zero => simp [dsUpto] at h
  | succ n ih =>
    by_cases e : n ∈ L
    · have hds := dsUpto_succ L n
      rw [if_pos e] at hds
      simp only [hds] at h ⊢
      rw [List.length_append, List.length_singleton] at h
      by_cases ek : k = (dsUpto L n).length
      · subst ek
        simp
      · have hk : k < (dsUpto L n).length := by omega
        obtain ⟨h1, h2⟩ := ih hk
        rw [List.getElem_append_left hk]
        refine ⟨h1, ?_⟩
        rw [List.drop_append_of_le_length (by omega), ← List.append_assoc, ← h2]
    · have hds := dsUpto_succ L n
      rw [if_neg e] at hds
      simp only [hds] at h ⊢
      exact ih h

theorem byteAlphabet_spec {L : List Nat} (hL : L ≠ []) (hb : ∀ c ∈ L, c < 256) (hn : L.length < 2 ^ 64) :
    ∃ s, byteAlphabet L L.length = some s ∧ AlphaOk s.alpha L (· < 256) := by
  have hpos := List.length_pos_iff.2 hL
  obtain ⟨D, d1, d2, d3⟩ := countSyms_spec (n := 257) L [] (List.replicate 257 0) (fun c hc => by have := hb c hc; omega) (by rw [List.length_replicate])
    (by intro c hc; rw [List.length_replicate] at hc; rw [List.getElem?_replicate, if_pos hc]; simp) (by simpa using hn)
  rw [List.length_replicate] at d2 d3
  rw [List.nil_append] at d3
  have hds := dsUpto_isDs hb
  have hle := dsUpto_le L 256
  obtain ⟨s, s1, s2⟩ := compactLoop_spec (L := L) 256 0 ⟨List.replicate 256 0, List.replicate 256 0, D, 0⟩ (by omega)
    ⟨rfl, List.length_replicate, List.length_replicate, d2, by
      intro c hc
      dsimp only
      rw [List.getElem?_replicate, if_pos hc]
      simp [dsUpto], by intro k hk; simp [dsUpto] at hk, by intro k hk; simp [dsUpto] at hk, fun c _ hc => d3 c hc⟩
  have hsig := s2.sigma
  have hl3 := s2.l3
  obtain ⟨R, r1, r2, r3⟩ := shiftLoop_spec s.sigma (s.C.take (s.sigma + 1)) (by rw [List.length_take]; omega)
  rw [List.length_take] at r2
  obtain ⟨S, t1, t2⟩ := sumLoop_spec hds hn s.sigma 1 (R.set 0 0) (by omega) (by omega) (by rw [List.length_set]; omega)
    (by
      intro t ht
      obtain rfl : t = 0 := by omega
      rw [set_get? (by omega), if_pos rfl]; rfl)
    (by
      intro t ht _
      rw [set_get? (by omega), if_neg (by omega), r3, if_pos ⟨by omega, by omega⟩, Nat.add_sub_cancel, List.getElem?_take_of_lt (by omega), s2.cl t ht])
  refine ⟨⟨s.char2comp, s.comp2char.take s.sigma, S, s.sigma⟩, ?_, ⟨⟨dsUpto L 256, hds, hsig, fun k hk => ⟨?_, ?_⟩, t2⟩, fun c hc hcL => ?_⟩⟩
  · rw [byteAlphabet, if_neg (by omega), if_neg (by omega), List.take_length, d1, sbind, s1, sbind, r1, sbind, setList_of_lt (by omega), sbind, t1, sbind]; rfl
  · have hm := List.getElem_mem hk
    have hlt := (dsUpto_mem.1 hm).1
    show s.char2comp[(dsUpto L 256)[k]]? = _
    rw [s2.c2c _ hlt, if_pos hm, (dsUpto_getElem hk).1]
  · show (s.comp2char.take s.sigma)[k]? = _
    rw [List.getElem?_take_of_lt (by omega), s2.inv k hk]
  · show s.char2comp[c]? = _
    rw [s2.c2c c hc, if_neg (fun h => hcL (dsUpto_mem.1 h).2)]

/-! ### `succinct_byte_alphabet` -/

/-- A bit vector that marks the members of `ds`. -/
def Marks (m : List Bool) (ds : List Nat) : Prop := (∀ c ∈ ds, c < m.length) ∧ ∀ p, p < m.length → Bv.bit m p = decide (p ∈ ds)

theorem Marks.cnt {m : List Bool} {ds : List Nat} (h : Marks m ds) (hn : ds.Nodup) : ∀ i, i ≤ m.length → Bv.cnt true m i = ds.countP (fun a => decide (a < i)) := by
  intro i
  induction i with
  | zero => intro _; rw [Bv.cnt_zero]; symm; rw [List.countP_eq_zero]; simp
  | succ i ih =>
    intro hi
    rw [Bv.cnt_succ, ih (by omega), h.2 i (by omega)]
    have h1 : ds.countP (fun a => decide (a < i + 1)) = ds.countP (fun a => decide (a < i)) + ds.countP (fun a => decide (a = i)) := by
      clear h hn ih hi
      induction ds with
      | nil => rfl
      | cons d ds ihd =>
        rw [List.countP_cons, List.countP_cons, List.countP_cons, ihd]
        by_cases e1 : d < i
        · simp [e1, Nat.ne_of_lt e1, Nat.lt_succ_of_lt e1]; omega
        · by_cases e2 : d = i
          · simp [e2]; omega
          · simp [e1, e2, show ¬ d < i + 1 by omega]
    have h2 : ds.countP (fun a => decide (a = i)) = ds.count i := by
      rw [List.count]; apply List.countP_congr; intro a _; simp
    rw [h1, h2]
    by_cases e : i ∈ ds
    · rw [List.count_eq_one_of_mem hn e]; simp [e]
    · rw [List.count_eq_zero_of_not_mem e]; simp [e]

theorem Marks.cnt_get {m : List Bool} {ds : List Nat} (h : Marks m ds) (hs : ds.Pairwise (· < ·)) {k : Nat} (hk : k < ds.length) : Bv.cnt true m ds[k] = k := by
  have h1 := h.1 _ (List.getElem_mem hk)
  rw [h.cnt (hs.imp (fun hab => Nat.ne_of_lt hab)) _ (by omega)]
  exact (index_eq_count hs (fun a b h => by omega) hk).1

theorem Marks.select {m : List Bool} {ds : List Nat} (h : Marks m ds) (hs : ds.Pairwise (· < ·)) {k : Nat} (hk : k < ds.length) : Bv.select true m (k + 1) = some ds[k] := by
  have hm := List.getElem_mem hk
  have h1 := h.1 _ hm
  have h2 := Bv.select_eq (tb := true) h1 (by rw [h.2 _ h1]; simp)
  rw [h.cnt_get hs hk] at h2
  exact h2

/-- State of the compaction loop before symbol `i`. -/
structure SBAInv (L : List Nat) (i : Nat) (s : SBA) : Prop where
  sigma : s.sigma = (dsUpto L i).length
  l1 : s.chars.length = 256
  l3 : s.D.length = 257
  mks : Marks s.chars (dsUpto L i)
  cl : ∀ k (h : k < (dsUpto L i).length), s.D[k]? = some (L.count (dsUpto L i)[k])
  cr : ∀ c, i ≤ c → c < 257 → s.D[c]? = some (L.count c)

theorem sCompactLoop_spec {L : List Nat} : ∀ (k i : Nat) (s : SBA), i + k = 256 → SBAInv L i s → ∃ s', sCompactLoop k i s = some s' ∧ SBAInv L 256 s' := by
  intro k
  induction k with
  | zero => intro i s h1 h2; rw [Nat.add_zero] at h1; subst h1; exact ⟨s, rfl, h2⟩
  | succ k ih =>
    intro i s h1 h2
    have hle := dsUpto_le L i
    have hds := dsUpto_succ L i
    rw [sCompactLoop, h2.cr i (Nat.le_refl _) (by omega), sbind]
    by_cases e : i ∈ L
    · rw [if_pos (count_ne_zero.2 e)]
      rw [if_pos e] at hds
      have hsig := h2.sigma
      have hl1 := h2.l1
      have hl3 := h2.l3
      rw [setList_of_lt (by omega), sbind, setList_of_lt (by omega), sbind]
      apply ih (i + 1) _ (by omega)
      have hlen : (dsUpto L (i + 1)).length = (dsUpto L i).length + 1 := by rw [hds, List.length_append, List.length_singleton]
      refine ⟨by rw [hlen]; dsimp only; omega, by simpa using hl1, by simpa using hl3, ⟨fun c hc => ?_, fun p hp => ?_⟩, fun k hk => ?_, fun c hc1 hc2 => ?_⟩
      · dsimp only
        have := (dsUpto_mem.1 hc).1
        rw [List.length_set]; omega
      · dsimp only
        rw [List.length_set] at hp
        rw [Bv.bit_set (by omega), hds]
        by_cases ec : p = i
        · rw [if_pos ec]; simp [ec]
        · rw [if_neg ec, h2.mks.2 p hp]
          simp [ec]
      · dsimp only
        rw [set_get? (by omega)]
        by_cases ek : k = s.sigma
        · rw [if_pos ek]
          simp [hds, ek, hsig]
        · have hk' : k < (dsUpto L i).length := by omega
          rw [if_neg ek, h2.cl k hk']
          simp [hds, List.getElem_append_left, hk']
      · dsimp only
        rw [set_get? (by omega), if_neg (by omega), h2.cr c (by omega) hc2]
    · rw [if_neg (fun h => e (count_ne_zero.1 h))]
      rw [if_neg e] at hds
      apply ih (i + 1) _ (by omega)
      refine ⟨by rw [hds]; exact h2.sigma, h2.l1, h2.l3, by rw [hds]; exact h2.mks, ?_, fun c hc1 hc2 => h2.cr c (by omega) hc2⟩
      simp only [hds]; exact h2.cl

theorem sShiftLoop_spec {D : List Nat} : ∀ (i : Nat) (C : Arr), i < C.xs.length → i ≤ D.length → (∀ d ∈ D.take i, d < 2 ^ C.width) →
    ∃ R, sShiftLoop D i C = some R ∧ R.xs.length = C.xs.length ∧ R.width = C.width ∧ ∀ t, R.get t = if 0 < t ∧ t ≤ i then D[t - 1]? else C.get t := by
  intro i
  induction i with
  | zero => intro C _ _ _; exact ⟨C, rfl, rfl, rfl, fun t => by rw [if_neg (by omega)]⟩
  | succ i ih =>
    intro C h hD hw
    have hi : i < D.length := by omega
    obtain ⟨b, b1, b2, b3, b4⟩ := set_spec h (hw D[i] (by rw [List.take_succ_eq_append_getElem hi]; exact List.mem_append_right _ (List.mem_singleton_self _)))
    obtain ⟨R, r1, r2, r2', r3⟩ := ih b (by omega) (by omega) (by rw [b3]; intro d hd; exact hw d (by rw [List.take_succ_eq_append_getElem hi]; exact List.mem_append_left _ hd))
    refine ⟨R, ?_, by rw [r2, b2], by rw [r2', b3], fun t => ?_⟩
    · rw [sShiftLoop, List.getElem?_eq_getElem hi, sbind, b1, sbind, r1]
    · rw [r3 t, b4]
      by_cases e : t = i + 1
      · subst e
        rw [if_neg (by omega), if_pos rfl, if_pos ⟨by omega, by omega⟩, Nat.add_sub_cancel, List.getElem?_eq_getElem hi]
      · by_cases e2 : 0 < t ∧ t ≤ i
        · rw [if_pos e2, if_pos ⟨e2.1, by omega⟩]
        · rw [if_neg e2, if_neg e, if_neg (by omega)]

theorem sSumLoop_spec {L ds : List Nat} (hd : IsDs ds L) (hn : L.length < 2 ^ 64) : ∀ (k i : Nat) (C : Arr), i + k = ds.length + 1 → 0 < i → C.xs.length = ds.length + 1 → L.length < 2 ^ C.width →
    (∀ t, t < i → C.get t = some (psum L ds t)) → (∀ t (h : t < ds.length), i ≤ t + 1 → C.get (t + 1) = some (L.count ds[t])) →
    ∃ R, sSumLoop k i C = some R ∧ ∀ t, t ≤ ds.length → R.get t = some (psum L ds t) := by
  intro k
  induction k with
  | zero => intro i C h1 h2 h3 _ h4 h5; exact ⟨C, rfl, fun t ht => h4 t (by omega)⟩
  | succ k ih =>
    intro i C h1 h2 h3 hw h4 h5
    obtain ⟨j, rfl⟩ : ∃ j, i = j + 1 := ⟨i - 1, by omega⟩
    have hj : j < ds.length := by omega
    have hs := psum_succ (L := L) hj
    have hle := psum_le hd (k := j + 1)
    obtain ⟨b, b1, b2, b3, b4⟩ := set_spec (a := C) (i := j + 1) (x := psum L ds (j + 1)) (by omega) (by omega)
    rw [sSumLoop, h5 j hj (Nat.le_refl _), sbind, Nat.add_sub_cancel, h4 j (by omega), sbind, add64_eq (by omega), Nat.add_comm (List.count _ _), ← hs, b1, sbind]
    refine ih (j + 1 + 1) _ (by omega) (by omega) (by omega) (by rw [b3]; exact hw) (fun t ht => ?_) (fun t ht ht2 => ?_)
    · rw [b4]
      by_cases e : t = j + 1
      · rw [if_pos e, e]
      · rw [if_neg e, h4 t (by omega)]
    · rw [b4, if_neg (by omega), h5 t ht (by omega)]

theorem succinctByteAlphabet_spec {L : List Nat} (hL : L ≠ []) (hb : ∀ c ∈ L, c < 256) (hn : L.length < 2 ^ 64) :
    ∃ A, succinctByteAlphabet L L.length = some A ∧ AlphaOk A L (· < 2 ^ 64) := by
  have hpos := List.length_pos_iff.2 hL
  obtain ⟨D, d1, d2, d3⟩ := countSyms_spec (n := 257) L [] (List.replicate 257 0) (fun c hc => by have := hb c hc; omega) (by rw [List.length_replicate])
    (by intro c hc; rw [List.length_replicate] at hc; rw [List.getElem?_replicate, if_pos hc]; simp) (by simpa using hn)
  rw [List.length_replicate] at d2 d3
  rw [List.nil_append] at d3
  have hds := dsUpto_isDs hb
  have hle := dsUpto_le L 256
  obtain ⟨s, s1, s2⟩ := sCompactLoop_spec (L := L) 256 0 ⟨List.replicate 256 false, D, 0⟩ (by omega)
    ⟨rfl, List.length_replicate, d2, ⟨by intro c hc; simp [dsUpto] at hc, by intro p hp; rw [Bv.bit_replicate]; simp [dsUpto]⟩, by intro k hk; simp [dsUpto] at hk, fun c _ hc => d3 c hc⟩
  have hsig := s2.sigma
  have hl1 := s2.l1
  have hl3 := s2.l3
  obtain ⟨w, w1, w2, w3⟩ := hiW_spec hn
  have hwid : (Arr.new (s.sigma + 1) 0 w).width = w := w3
  obtain ⟨R, r1, r2, r2', r3⟩ := sShiftLoop_spec (D := s.D) s.sigma (Arr.new (s.sigma + 1) 0 w) (by rw [Select.Arr.new_xs]; omega) (by omega) (by
    intro d hd
    obtain ⟨k, hk, rfl⟩ := List.mem_iff_getElem.1 hd
    rw [List.length_take] at hk
    have h1 := s2.cl k (by omega)
    rw [List.getElem?_eq_getElem (by omega), Option.some.injEq] at h1
    rw [List.getElem_take, h1, hwid]
    exact Nat.lt_of_le_of_lt List.count_le_length w2)
  rw [Select.Arr.new_xs] at r2
  obtain ⟨b, b1, b2, b3, b4⟩ := set_spec (a := R) (i := 0) (x := 0) (by omega) (Nat.two_pow_pos _)
  obtain ⟨S, t1, t2⟩ := sSumLoop_spec hds hn s.sigma 1 b (by omega) (by omega) (by omega) (by rw [b3, r2', hwid]; exact w2)
    (by
      intro t ht
      obtain rfl : t = 0 := by omega
      rw [b4, if_pos rfl]; rfl)
    (by
      intro t ht _
      rw [b4, if_neg (by omega), r3, if_pos ⟨by omega, by omega⟩, Nat.add_sub_cancel, s2.cl t ht])
  refine ⟨sbaAlpha s.chars S s.sigma, ?_, ⟨⟨dsUpto L 256, hds, hsig, fun k hk => ⟨?_, ?_⟩, t2⟩, fun c _ hcL => ?_⟩⟩
  · rw [succinctByteAlphabet, if_neg (by omega), if_neg (by omega), List.take_length, d1, sbind, s1, sbind, w1, sbind, r1, sbind, b1, sbind, t1, sbind]; rfl
  · have hm := List.getElem_mem hk
    have hlt := (dsUpto_mem.1 hm).1
    show (if s.chars.length ≤ (dsUpto L 256)[k] then _ else _) = _
    rw [if_neg (by omega), Bv.get_of_lt (by omega), sbind, s2.mks.2 _ (by omega), if_pos (by simp), Bv.rank_of_le (by omega), sbind, s2.mks.cnt_get hds.sorted hk,
      Nat.mod_eq_of_lt (by omega)]
    rfl
  · have hlt := (dsUpto_mem.1 (List.getElem_mem hk)).1
    show (Bv.select true s.chars (k + 1) >>= fun p => pure (p % 256)) = _
    rw [s2.mks.select hds.sorted hk, sbind, Nat.mod_eq_of_lt hlt]; rfl
  · show (if s.chars.length ≤ c then _ else _) = _
    by_cases e : s.chars.length ≤ c
    · rw [if_pos e]
    · rw [if_neg e, Bv.get_of_lt (by omega), sbind, s2.mks.2 c (by omega), if_neg (by simpa using fun h => hcL (dsUpto_mem.1 h).2)]; rfl

/-! ### `int_alphabet` -/

/-- A `std::map` that counts the symbols of `L`. -/
structure MapOk (D : List (Nat × Nat)) (L : List Nat) : Prop where
  ds : IsDs (D.map Prod.fst) L
  val : ∀ x ∈ D, x.2 = L.count x.1

theorem mapInc_mem {c x : Nat} : ∀ D : List (Nat × Nat), x ∈ (mapInc c D).map Prod.fst ↔ x = c ∨ x ∈ D.map Prod.fst := by
  intro D
  induction D with
  | nil => simp [mapInc]
  | cons y D ih =>
    obtain ⟨a, k⟩ := y
    rw [mapInc]
    by_cases e1 : c < a
    · rw [if_pos e1]; simp
    · rw [if_neg e1]
      by_cases e2 : c = a
      · rw [if_pos e2, e2]; simp
      · rw [if_neg e2, List.map_cons, List.mem_cons, ih, List.map_cons, List.mem_cons]
        constructor
        · rintro (h | h | h) <;> simp [h]
        · rintro (h | h | h) <;> simp [h]

theorem mapInc_sorted {c : Nat} : ∀ D : List (Nat × Nat), (D.map Prod.fst).Pairwise (· < ·) → ((mapInc c D).map Prod.fst).Pairwise (· < ·) := by
  intro D
  induction D with
  | nil => intro _; simp [mapInc]
  | cons y D ih =>
    obtain ⟨a, k⟩ := y
    intro h
    rw [List.map_cons, List.pairwise_cons] at h
    rw [mapInc]
    by_cases e1 : c < a
    · rw [if_pos e1, List.map_cons, List.map_cons, List.pairwise_cons, List.pairwise_cons]
      refine ⟨fun x hx => ?_, h⟩
      rw [List.mem_cons] at hx
      rcases hx with rfl | hx
      · exact e1
      · exact Nat.lt_trans e1 (h.1 x hx)
    · rw [if_neg e1]
      by_cases e2 : c = a
      · rw [if_pos e2, List.map_cons, List.pairwise_cons]; exact h
      · rw [if_neg e2, List.map_cons, List.pairwise_cons]
        refine ⟨fun x hx => ?_, ih h.2⟩
        rw [mapInc_mem] at hx
        rcases hx with rfl | hx
        · dsimp only; omega
        · exact h.1 x hx

theorem mapInc_val {c : Nat} {L : List Nat} (hn : L.length + 1 < 2 ^ 64) : ∀ D : List (Nat × Nat), (D.map Prod.fst).Pairwise (· < ·) → (∀ x ∈ D, x.2 = L.count x.1) →
    (c ∈ L → c ∈ D.map Prod.fst) → ∀ x ∈ mapInc c D, x.2 = (L ++ [c]).count x.1 := by
  have hne : ∀ a, a ≠ c → (L ++ [c]).count a = L.count a := by
    intro a ha
    rw [List.count_append, List.count_singleton, if_neg (by simpa using fun h => ha h.symm), Nat.add_zero]
  have heq : (L ++ [c]).count c = L.count c + 1 := by rw [List.count_append, List.count_singleton_self]
  intro D
  induction D with
  | nil =>
    intro _ _ h x hx
    rw [mapInc, List.mem_singleton] at hx
    subst hx
    rw [heq, List.count_eq_zero_of_not_mem (fun h' => by simpa using h h')]
  | cons y D ih =>
    obtain ⟨a, k⟩ := y
    intro hs hv h x hx
    rw [List.map_cons, List.pairwise_cons] at hs
    have hgt : ∀ z ∈ D, a < z.1 := fun z hz => hs.1 z.1 (List.mem_map_of_mem hz)
    rw [mapInc] at hx
    by_cases e1 : c < a
    · rw [if_pos e1, List.mem_cons] at hx
      rcases hx with rfl | hx
      · rw [heq, List.count_eq_zero_of_not_mem]
        intro h'
        have h2 := h h'
        rw [List.map_cons, List.mem_cons] at h2
        rcases h2 with h2 | h2
        · dsimp only at h2; omega
        · have := hs.1 c h2; dsimp only at this; omega
      · have : a ≤ x.1 := by
          rw [List.mem_cons] at hx
          rcases hx with rfl | hx
          · exact Nat.le_refl _
          · exact Nat.le_of_lt (hgt x hx)
        rw [hv x hx, hne _ (by omega)]
    · rw [if_neg e1] at hx
      by_cases e2 : c = a
      · rw [if_pos e2, List.mem_cons] at hx
        rcases hx with rfl | hx
        · have h1 := hv (a, k) (by simp)
          dsimp only at h1 ⊢
          have h2 := List.count_le_length (a := a) (l := L)
          rw [← e2, heq, e2, Nat.mod_eq_of_lt (by omega), h1]
        · rw [hv x (by simp [hx]), hne _ (by have := hgt x hx; omega)]
      · rw [if_neg e2, List.mem_cons] at hx
        rcases hx with rfl | hx
        · rw [hv (a, k) (by simp), hne _ (by dsimp only; omega)]
        · refine ih hs.2 (fun z hz => hv z (by simp [hz])) (fun h' => ?_) x hx
          have h2 := h h'
          rw [List.map_cons, List.mem_cons] at h2
          rcases h2 with h2 | h2
          · exact absurd h2 e2
          · exact h2

theorem map_spec : ∀ (L pre : List Nat) (D : List (Nat × Nat)), MapOk D pre → pre.length + L.length < 2 ^ 64 → MapOk (L.foldl (fun D c => mapInc c D) D) (pre ++ L) := by
  intro L
  induction L with
  | nil => intro pre D h _; simpa using h
  | cons c L ih =>
    intro pre D h hn
    rw [List.length_cons] at hn
    rw [List.foldl_cons, show pre ++ c :: L = (pre ++ [c]) ++ L by simp]
    apply ih
    · refine ⟨⟨mapInc_sorted D h.ds.sorted, fun x => ?_⟩, mapInc_val (by omega) D h.ds.sorted h.val (fun hc => (h.ds.mem c).2 hc)⟩
      rw [mapInc_mem, h.ds.mem, List.mem_append, List.mem_singleton]
      exact Or.comm
    · rw [List.length_append, List.length_singleton]; omega

theorem markLoop_spec {n : Nat} : ∀ (D : List (Nat × Nat)) (m : List Bool) (pre : List Nat), m.length = n → (∀ x ∈ D, x.1 < n) → (∀ p, p < n → Bv.bit m p = decide (p ∈ pre)) →
    ∃ m', markLoop D m = some m' ∧ m'.length = n ∧ ∀ p, p < n → Bv.bit m' p = decide (p ∈ pre ++ D.map Prod.fst) := by
  intro D
  induction D with
  | nil => intro m pre h1 _ h3; exact ⟨m, rfl, h1, by simpa using h3⟩
  | cons x D ih =>
    obtain ⟨a, k⟩ := x
    intro m pre h1 h2 h3
    have ha := h2 (a, k) (by simp)
    dsimp only at ha
    obtain ⟨m', g1, g2, g3⟩ := ih (m.set a true) (pre ++ [a]) (by rw [List.length_set]; exact h1) (fun x hx => h2 x (by simp [hx])) (by
      intro p hp
      rw [Bv.bit_set (by omega)]
      by_cases e : p = a
      · rw [if_pos e]; simp [e]
      · rw [if_neg e, h3 p hp]; simp [e])
    refine ⟨m', by rw [markLoop, setList_of_lt (by omega), sbind, g1], g2, fun p hp => ?_⟩
    rw [g3 p hp, List.append_assoc]; rfl

theorem iSumLoop_spec {L ds : List Nat} (hd : IsDs ds L) (hn : L.length < 2 ^ 64) : ∀ (D : List (Nat × Nat)) (idx : Nat) (C : Arr), D.map Prod.fst = ds.drop idx → idx ≤ ds.length →
    (∀ x ∈ D, x.2 = L.count x.1) → C.xs.length = ds.length + 1 → L.length < 2 ^ C.width → (∀ t, t < idx → C.get t = some (psum L ds t)) →
    ∃ R, iSumLoop D idx (psum L ds idx) C = some R ∧ ∀ t, t ≤ ds.length → R.get t = some (psum L ds t) := by
  intro D
  induction D with
  | nil =>
    intro idx C h1 h2 h3 h4 h5 h6
    have hi : idx = ds.length := by
      have := congrArg List.length h1
      rw [List.length_map, List.length_drop, List.length_nil] at this
      omega
    have hle := psum_le hd (k := idx)
    obtain ⟨b, b1, b2, b3, b4⟩ := set_spec (a := C) (i := idx) (x := psum L ds idx) (by omega) (by omega)
    refine ⟨b, by rw [iSumLoop, b1], fun t ht => ?_⟩
    rw [b4]
    by_cases e : t = idx
    · rw [if_pos e, e]
    · rw [if_neg e, h6 t (by omega)]
  | cons x D ih =>
    obtain ⟨a, k⟩ := x
    intro idx C h1 h2 h3 h4 h5 h6
    rw [List.map_cons] at h1
    obtain ⟨g1, g2, g3⟩ := drop_eq h1.symm
    have hle := psum_le hd (k := idx)
    have hle' := psum_le hd (k := idx + 1)
    have hk := h3 (a, k) (by simp)
    dsimp only at hk g2
    have hs := psum_succ (L := L) g1
    rw [← sym_lt g1, ← g2, ← hk] at hs
    obtain ⟨b, b1, b2, b3, b4⟩ := set_spec (a := C) (i := idx) (x := psum L ds idx) (by omega) (by omega)
    rw [iSumLoop, b1, sbind, add64_eq (by omega), ← hs]
    refine ih (idx + 1) b g3.symm (by omega) (fun x hx => h3 x (by simp [hx])) (by omega) (by rw [b3]; exact h5) (fun t ht => ?_)
    rw [b4]
    by_cases e : t = idx
    · rw [if_pos e, e]
    · rw [if_neg e, h6 t (by omega)]

theorem sorted_full {ds : List Nat} (hs : ds.Pairwise (· < ·)) (hb : ∀ c ∈ ds, c < ds.length) {k : Nat} (hk : k < ds.length) : ds[k] = k := by
  have h1 : ∀ k (hk : k < ds.length), k ≤ ds[k] := by
    intro k
    induction k with
    | zero => intro _; omega
    | succ k ih =>
      intro hk
      have := ih (by omega)
      have := List.pairwise_iff_getElem.1 hs k (k + 1) (by omega) hk (by omega)
      omega
  have h2 : ∀ d k (hk : k < ds.length), k + d + 1 = ds.length → ds[k] ≤ k := by
    intro d
    induction d with
    | zero => intro k hk he; have := hb _ (List.getElem_mem hk); omega
    | succ d ih =>
      intro k hk he
      have h3 := ih (k + 1) (by omega) (by omega)
      have := List.pairwise_iff_getElem.1 hs k (k + 1) hk (by omega) (by omega)
      omega
  have := h1 k hk
  have := h2 (ds.length - 1 - k) k hk (by omega)
  omega

theorem intAlphabet_spec {L : List Nat} (hL : L ≠ []) (hb : ∀ c ∈ L, c < 2 ^ 64 - 1) (hn : L.length < 2 ^ 64) :
    ∃ A, intAlphabet L L.length = some A ∧ AlphaOk A L (· < 2 ^ 64) := by
  have hpos := List.length_pos_iff.2 hL
  have hD := map_spec L [] [] ⟨⟨by simp, by simp⟩, by simp⟩ (by simpa using hn)
  rw [List.nil_append] at hD
  obtain ⟨D, hDe⟩ : ∃ D, D = L.foldl (fun D c => mapInc c D) [] := ⟨_, rfl⟩
  rw [← hDe] at hD
  obtain ⟨ds, hdse⟩ : ∃ ds, ds = D.map Prod.fst := ⟨_, rfl⟩
  have hds := hD.ds
  rw [← hdse] at hds
  have hlen : D.length = ds.length := by rw [hdse, List.length_map]
  have hDne : D ≠ [] := by
    intro h
    obtain ⟨c, hc⟩ := List.exists_mem_of_ne_nil L hL
    have := (hds.mem c).2 hc
    rw [hdse, h] at this
    simp at this
  have hlast : (D.getLast hDne).1 ∈ ds := by rw [hdse]; exact List.mem_map_of_mem (List.getLast_mem hDne)
  have hmax : ∀ c ∈ ds, c ≤ (D.getLast hDne).1 := by
    intro c hc
    obtain ⟨k, hk, rfl⟩ := List.mem_iff_getElem.1 hc
    have h1 : (D.getLast hDne).1 = ds[ds.length - 1] := by
      rw [List.getLast_eq_getElem]
      simp only [hdse, List.getElem_map, List.length_map]
    rw [h1]
    by_cases e : k = ds.length - 1
    · simp [e]
    · exact Nat.le_of_lt (List.pairwise_iff_getElem.1 hds.sorted k (ds.length - 1) hk (by omega) (by omega))
  have hlt : (D.getLast hDne).1 < 2 ^ 64 - 1 := hb _ ((hds.mem _).1 hlast)
  obtain ⟨w, w1, w2, w3⟩ := hiW_spec hn
  have hwid : (Arr.new (D.length + 1) 0 w).width = w := w3
  obtain ⟨C, c1, c2⟩ := iSumLoop_spec hds hn D 0 (Arr.new (D.length + 1) 0 w) (by rw [List.drop_zero, hdse]) (by omega) hD.val (by rw [Select.Arr.new_xs]; omega) (by rw [hwid]; exact w2)
    (by intro t ht; omega)
  have c1' : iSumLoop D 0 0 (Arr.new (D.length + 1) 0 w) = some C := c1
  have hgl : D.getLast? = some (D.getLast hDne) := List.getLast?_eq_some_getLast hDne
  have hout : ∀ m, intMarked D = some m → intAlphabet L L.length = some (iAlpha m C D.length) := by
    intro m hm
    rw [intAlphabet, if_neg (by omega), if_neg (by omega), List.take_length, ← hDe, intAlphabetOf, hm, sbind, w1, sbind, c1', sbind]; rfl
  by_cases e : (D.getLast hDne).1 + 1 = D.length
  · have hm : intMarked D = some [] := by rw [intMarked, hgl, sbind, add64_eq (by omega), if_pos e]
    have hfull : ∀ k (hk : k < ds.length), ds[k] = k := fun k hk => sorted_full hds.sorted (fun c hc => by have := hmax c hc; omega) hk
    refine ⟨_, hout [] hm, ⟨⟨ds, hds, hlen, fun k hk => ⟨?_, ?_⟩, c2⟩, fun c _ hcL => ?_⟩⟩
    · show (if D.length ≤ ds[k] then some 0 else some ds[k]) = _
      rw [hfull k hk, if_neg (by omega)]
    · show some k = _
      rw [hfull k hk]
    · show (if D.length ≤ c then some 0 else some c) = _
      rw [if_pos]
      by_contra hc
      apply hcL
      rw [← hds.mem, ← hfull c (by omega)]
      exact List.getElem_mem _
  · obtain ⟨m, m1, m2, m3⟩ := markLoop_spec (n := (D.getLast hDne).1 + 1) D (List.replicate ((D.getLast hDne).1 + 1) false) [] List.length_replicate
      (by intro x hx; have := hmax x.1 (by rw [hdse]; exact List.mem_map_of_mem hx); omega) (by intro p _; rw [Bv.bit_replicate]; simp)
    rw [List.nil_append, ← hdse] at m3
    have hm : intMarked D = some m := by rw [intMarked, hgl, sbind, add64_eq (by omega), if_neg e, m1]
    have hM : Marks m ds := ⟨fun c hc => by have := hmax c hc; omega, fun p hp => m3 p (by omega)⟩
    refine ⟨_, hout m hm, ⟨⟨ds, hds, hlen, fun k hk => ⟨?_, ?_⟩, c2⟩, fun c _ hcL => ?_⟩⟩
    · have h1 := hM.1 _ (List.getElem_mem hk)
      show (if 0 < m.length then (if m.length ≤ ds[k] then _ else _) else _) = _
      rw [if_pos (by omega), if_neg (by omega), Bv.get_of_lt h1, sbind, hM.2 _ h1, if_pos (by simp), Bv.rank_of_le (by omega), hM.cnt_get hds.sorted hk]
    · show (if 0 < m.length then Bv.select true m (k + 1) else _) = _
      rw [if_pos (by omega), hM.select hds.sorted hk]
    · show (if 0 < m.length then (if m.length ≤ c then _ else _) else _) = _
      rw [if_pos (by omega)]
      by_cases e2 : m.length ≤ c
      · rw [if_pos e2]
      · rw [if_neg e2, Bv.get_of_lt (by omega), sbind, hM.2 c (by omega), if_neg (by simpa using fun h => hcL ((hds.mem c).1 h))]; rfl

end Sdsl.Csa
