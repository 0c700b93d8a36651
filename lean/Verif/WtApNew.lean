/-
  The constructor of the alphabet-partitioned wavelet tree.
-/
import Verif.WtApLemmas

namespace Sdsl.Csa.Ap

open _root_.Sdsl.Csa

/-! ### The frequencies -/

/-- `char_freq` for the symbols below `N`. -/
def cfOf (L : List Nat) (N : Nat) : List (Nat × Nat) := (List.range N).map (fun c => (L.count c, c))

theorem cfOf_length (L : List Nat) (N : Nat) : (cfOf L N).length = N := by simp [cfOf]

theorem cfOf_get {L : List Nat} {N c : Nat} (h : c < N) : (cfOf L N)[c]? = some (L.count c, c) := by
  rw [cfOf, List.getElem?_map, List.getElem?_range h]; rfl

/-- State of the counting loop. -/
structure FInv (pre : List Nat) (N : Nat) (s : Freq) : Prop where
  le : N ≤ 2 ^ 63
  mem : ∀ c ∈ pre, c < N
  cf : s.cf = cfOf pre N
  maxSym : s.maxSym = N
  pseudo : s.pseudo + (dsUpto pre N).length = N

theorem grow_spec {c : Nat} {pre : List Nat} (hc : c < 2 ^ 63) : ∀ (fuel N : Nat) (s : Freq), FInv pre N s → c + 1 ≤ N + fuel → ∃ s', grow c fuel s = some s' ∧ FInv pre (max N (c + 1)) s' := by
  intro fuel
  induction fuel with
  | zero =>
    intro N s h hf
    rw [grow, h.maxSym, if_neg (by omega)]
    exact ⟨s, rfl, by rw [Nat.max_eq_left (by omega)]; exact h⟩
  | succ fuel ih =>
    intro N s h hf
    have hle := h.le
    have hps := h.pseudo
    by_cases e : N ≤ c
    · rw [grow, h.maxSym, if_pos e]
      rw [add64_eq (by omega), add64_eq (by omega)]
      have hN : N ∉ pre := fun h' => by have := h.mem N h'; omega
      obtain ⟨s', g1, g2⟩ := ih (N + 1) ⟨s.cf ++ [(0, N)], N + 1, s.pseudo + 1⟩ ⟨by omega, fun d hd => by have := h.mem d hd; omega, by
        dsimp only
        rw [h.cf, cfOf, cfOf, List.range_succ, List.map_append, List.map_singleton, List.count_eq_zero_of_not_mem hN], rfl, by
        dsimp only
        rw [dsUpto_succ, if_neg hN]; omega⟩ (by omega)
      refine ⟨s', g1, ?_⟩
      rw [show max N (c + 1) = max (N + 1) (c + 1) by omega]
      exact g2
    · rw [grow, h.maxSym, if_neg (by omega)]
      exact ⟨s, rfl, by rw [Nat.max_eq_left (by omega)]; exact h⟩

theorem dsUpto_snoc {pre : List Nat} {N c : Nat} (hc : c < N) : (dsUpto (pre ++ [c]) N).length = (dsUpto pre N).length + if c ∈ pre then 0 else 1 := by
  by_cases e : c ∈ pre
  · rw [if_pos e]
    have : dsUpto (pre ++ [c]) N = dsUpto pre N := by
      rw [dsUpto, dsUpto]
      apply List.filter_congr
      intro x _
      apply decide_eq_decide.2
      rw [List.mem_append, List.mem_singleton]
      exact ⟨fun h => h.elim id (fun h => h ▸ e), Or.inl⟩
    rw [this]; rfl
  · rw [if_neg e]
    have h1 : (dsUpto (pre ++ [c]) N).Nodup := (dsUpto_sorted _ _).imp (fun h => Nat.ne_of_lt h)
    have h2 : (dsUpto pre N).Nodup := (dsUpto_sorted _ _).imp (fun h => Nat.ne_of_lt h)
    have h3 : (c :: dsUpto pre N).Nodup := List.nodup_cons.2 ⟨fun h => e (dsUpto_mem.1 h).2, h2⟩
    have := ((List.perm_ext_iff_of_nodup h1 h3).2 (fun x => by
      rw [dsUpto_mem, List.mem_append, List.mem_singleton, List.mem_cons, dsUpto_mem]
      constructor
      · rintro ⟨h, h' | h'⟩
        · exact Or.inr ⟨h, h'⟩
        · exact Or.inl h'
      · rintro (rfl | ⟨h, h'⟩)
        · exact ⟨hc, Or.inr rfl⟩
        · exact ⟨h, Or.inl h'⟩)).length_eq
    rw [this, List.length_cons]

theorem freqLoop_spec : ∀ (cs pre : List Nat) (N : Nat) (s : Freq), (∀ c ∈ cs, c < 2 ^ 63) → pre.length + cs.length < 2 ^ 63 → FInv pre N s →
    ∃ s' M, freqLoop cs s = some s' ∧ FInv (pre ++ cs) M s' ∧ N ≤ M ∧ (M = N ∨ ∃ c ∈ cs, M = c + 1) := by
  intro cs
  induction cs with
  | nil => intro pre N s _ _ h; exact ⟨s, N, rfl, by simpa using h, Nat.le_refl _, Or.inl rfl⟩
  | cons c cs ih =>
    intro pre N s hc hn h
    rw [List.length_cons] at hn
    have hc0 := hc c (by simp)
    obtain ⟨s2, g1, g2⟩ := grow_spec (c := c) (pre := pre) hc0 (c + 1) N s h (by omega)
    obtain ⟨M, hM⟩ : ∃ M, M = max N (c + 1) := ⟨_, rfl⟩
    rw [← hM] at g2
    have hcM : c < M := by omega
    have hps := g2.pseudo
    have hle := g2.le
    have hcl := List.count_le_length (a := c) (l := pre)
    have hsn := dsUpto_snoc (pre := pre) hcM
    have hne : (pre.count c = 0) ↔ c ∉ pre := List.count_eq_zero
    have hds := dsUpto_le (pre ++ [c]) M
    have hinv : FInv (pre ++ [c]) M ⟨s2.cf.set c (add64 (pre.count c) 1, c), s2.maxSym, if pre.count c = 0 then sub64 s2.pseudo 1 else s2.pseudo⟩ := by
      refine ⟨g2.le, ?_, ?_, g2.maxSym, ?_⟩
      · intro d hd
        rcases List.mem_append.1 hd with hd | hd
        · exact g2.mem d hd
        · rw [List.mem_singleton.1 hd]; exact hcM
      · dsimp only
        rw [g2.cf, add64_eq (by omega)]
        apply List.ext_getElem?
        intro k
        rw [set_get? (by rw [cfOf_length]; exact hcM)]
        by_cases ek : k = c
        · rw [if_pos ek, ek, cfOf_get hcM, List.count_append, List.count_singleton_self]
        · rw [if_neg ek]
          by_cases ek2 : k < M
          · rw [cfOf_get ek2, cfOf_get ek2, List.count_append, List.count_singleton, if_neg (by simpa using fun h => ek h.symm)]; rfl
          · rw [List.getElem?_eq_none (by rw [cfOf_length]; omega), List.getElem?_eq_none (by rw [cfOf_length]; omega)]
      · dsimp only
        rw [hsn]
        by_cases e : c ∈ pre
        · rw [if_pos e, if_neg (fun h' => (hne.1 h') e)]; omega
        · rw [if_neg e] at hsn
          rw [if_neg e, if_pos (hne.2 e), sub64_eq (by omega) (by omega)]; omega
    obtain ⟨s', M', q1, q2, q3, q4⟩ := ih (pre ++ [c]) M _ (fun d hd => hc d (by simp [hd])) (by rw [List.length_append, List.length_singleton]; omega) hinv
    refine ⟨s', M', ?_, by rw [List.append_assoc] at q2; exact q2, by omega, ?_⟩
    · rw [freqLoop, g1, sbind, g2.cf, cfOf_get hcM, sbind]
      dsimp only
      rw [g2.cf] at q1
      exact q1
    · rcases q4 with q4 | ⟨d, hd, q4⟩
      · by_cases e : N ≤ c
        · exact Or.inr ⟨c, by simp, by omega⟩
        · exact Or.inl (by omega)
      · exact Or.inr ⟨d, by simp [hd], q4⟩

theorem pos_iff {α : Type} {P : α → Bool} : ∀ {l : List α}, l.Pairwise (fun a b => P b = true → P a = true) → ∀ {k : Nat} (h : k < l.length), P l[k] = true ↔ k < l.countP P
  | [], _, k, h => by simp at h
  | a :: l, hp, k, h => by
    rw [List.pairwise_cons] at hp
    rw [List.countP_cons]
    by_cases e : P a = true
    · rw [if_pos e]
      cases k with
      | zero => simp [e]
      | succ k =>
        rw [List.getElem_cons_succ, pos_iff hp.2 (by simpa using h)]
        omega
    · have h0 : l.countP P = 0 := by
        rw [List.countP_eq_zero]
        intro b hb hb2
        exact e (hp.1 b hb hb2)
      rw [if_neg e, h0]
      constructor
      · intro h1
        exfalso
        cases k with
        | zero => exact e h1
        | succ k => exact e (hp.1 _ (List.getElem_mem _) h1)
      · intro h1; omega

/-- The order in which the symbols are assigned to classes. -/
structure Ord (L : List Nat) (N sigma : Nat) (cs : List (Nat × Nat)) (ord : Nat → Nat) : Prop where
  len : cs.length = N
  get : ∀ k, k < N → ∃ f, cs[k]? = some (f, ord k)
  lt : ∀ k, k < N → ord k < N
  inj : ∀ j k, j < N → k < N → ord j = ord k → j = k
  surj : ∀ c, c < N → ∃ k, k < N ∧ ord k = c
  mem : ∀ k, k < N → (ord k ∈ L ↔ k < sigma)

theorem sort_spec (L : List Nat) (N : Nat) : ∃ ord, Ord L N (dsUpto L N).length (sortDesc (cfOf L N)) ord := by
  have hp : (sortDesc (cfOf L N)).Perm (cfOf L N) := List.perm_insertionSort _ _
  have hs : (sortDesc (cfOf L N)).Pairwise (fun a b => pairGe a b = true) := by
    have : Std.Total (fun a b : Nat × Nat => pairGe a b = true) := ⟨fun a b => by
      simp only [pairGe, decide_eq_true_eq] at *
      omega⟩
    have : IsTrans (Nat × Nat) (fun a b => pairGe a b = true) := ⟨fun a b c h1 h2 => by
      simp only [pairGe, decide_eq_true_eq] at *
      omega⟩
    exact List.pairwise_insertionSort _ _
  obtain ⟨cs, hcs⟩ : ∃ cs, cs = sortDesc (cfOf L N) := ⟨_, rfl⟩
  rw [← hcs] at hp hs ⊢
  have hlen : cs.length = N := by rw [hp.length_eq, cfOf_length]
  have hmem : ∀ x ∈ cs, x.2 < N ∧ x.1 = L.count x.2 := by
    intro x hx
    obtain ⟨c, hc, rfl⟩ := List.mem_map.1 (hp.mem_iff.1 hx)
    exact ⟨List.mem_range.1 hc, rfl⟩
  have hm2 : (cs.map Prod.snd).Perm (List.range N) := by
    have := hp.map Prod.snd
    rw [cfOf, List.map_map] at this
    have e : (Prod.snd ∘ fun c => (List.count c L, c)) = id := rfl
    rw [e, List.map_id] at this
    exact this
  have hnd : (cs.map Prod.snd).Nodup := hm2.nodup_iff.2 List.nodup_range
  have hget : ∀ k (h : k < cs.length), (cs.map Prod.snd).getD k 0 = (cs[k]).2 := by
    intro k h
    rw [List.getD_eq_getElem?_getD, List.getElem?_map, List.getElem?_eq_getElem h]; rfl
  refine ⟨fun k => (cs.map Prod.snd).getD k 0, hlen, ?_, ?_, ?_, ?_, ?_⟩
  · intro k hk
    rw [hget k (by omega), List.getElem?_eq_getElem (by omega)]
    exact ⟨cs[k].1, rfl⟩
  · intro k hk
    rw [hget k (by omega)]
    exact (hmem _ (List.getElem_mem _)).1
  · intro j k hj hk h
    rw [hget j (by omega), hget k (by omega)] at h
    have h2 : (cs.map Prod.snd)[j]'(by rw [List.length_map]; omega) = (cs.map Prod.snd)[k]'(by rw [List.length_map]; omega) := by
      rw [List.getElem_map, List.getElem_map]; exact h
    exact (List.Nodup.getElem_inj_iff hnd).1 h2
  · intro c hc
    have := hm2.mem_iff.2 (List.mem_range.2 hc)
    obtain ⟨k, hk, hk2⟩ := List.mem_iff_getElem.1 this
    rw [List.length_map] at hk
    refine ⟨k, by omega, ?_⟩
    rw [hget k hk, ← hk2, List.getElem_map]
  · intro k hk
    rw [hget k (by omega)]
    have hx := hmem _ (List.getElem_mem (l := cs) (n := k) (by omega))
    have hpw : cs.Pairwise (fun a b => (decide (b.1 ≠ 0)) = true → (decide (a.1 ≠ 0)) = true) := by
      refine hs.imp ?_
      intro a b h
      simp only [pairGe, decide_eq_true_eq] at *
      omega
    have hiff := pos_iff (l := cs) (P := fun a => decide (a.1 ≠ 0)) hpw (k := k) (by omega)
    rw [decide_eq_true_eq, hx.2] at hiff
    have hcnt : cs.countP (fun a => decide (a.1 ≠ 0)) = (dsUpto L N).length := by
      rw [hp.countP_eq, cfOf, List.countP_map, dsUpto, List.countP_eq_length_filter]
      congr 1
      apply List.filter_congr
      intro x _
      simp only [Function.comp]
      apply decide_eq_decide.2
      exact count_ne_zero
    rw [hcnt] at hiff
    rw [← hiff]
    exact count_ne_zero.symm

/-! ### The classes -/

/-- The classes of the first `cur` symbols are assigned and below `i`; the first `s` symbols form classes of their own. -/
structure CInv (N cc s cur i : Nat) (ord : Nat → Nat) (w : Nat) (b : Arr) : Prop where
  len : b.xs.length = N
  width : b.width = w
  un : ∀ k, k < N → cur ≤ k → b.get (ord k) = some cc
  sg : ∀ k, k < cur → k < s → b.get (ord k) = some k
  as : ∀ k, k < cur → s ≤ k → ∃ v, b.get (ord k) = some v ∧ s ≤ v ∧ v < i

variable {L : List Nat} {N sigma cc s w : Nat} {cs : List (Nat × Nat)} {ord : Nat → Nat}

theorem set_ord (ho : Ord L N sigma cs ord) {b : Arr} {k x : Nat} (hk : k < N) (hl : b.xs.length = N) (hx : x < 2 ^ b.width) :
    ∃ b', b.set (ord k) x = some b' ∧ b'.xs.length = N ∧ b'.width = b.width ∧ (∀ j, j < N → b'.get (ord j) = if j = k then some x else b.get (ord j)) ∧
      ∀ v, b.get (ord k) = some v → ∀ y, y ≠ v → b'.xs.count y = b.xs.count y + if x = y then 1 else 0 := by
  have hlt := ho.lt k hk
  have e := Arr.set_of_lt (a := b) (i := ord k) (x := x) (by omega)
  obtain ⟨b', g1, g2, g3, g4⟩ := set_spec (a := b) (i := ord k) (x := x) (by omega) hx
  refine ⟨b', g1, by omega, g3, fun j hj => ?_, fun v hv y hy => ?_⟩
  · rw [g4]
    by_cases ej : j = k
    · rw [if_pos ej, if_pos (by rw [ej])]
    · rw [if_neg ej, if_neg (fun h => ej (ho.inj j k hj hk h))]
  · rw [g1] at e
    injection e with e
    rw [e]
    dsimp only
    rw [List.count_set (by omega), Nat.mod_eq_of_lt hx]
    rw [Arr.get, List.getElem?_eq_getElem (by omega)] at hv
    injection hv with hv
    have h1 : ¬ ((b.xs[ord k]'(by omega)) == y) = true := by
      rw [hv]
      simpa using fun h => hy h.symm
    rw [if_neg h1]
    simp

theorem singleLoop_spec (ho : Ord L N sigma cs ord) (hs : s ≤ N) (hcc : cc < 2 ^ w) (hsc : s ≤ cc) : ∀ (k i : Nat) (b : Arr), i + k = s → CInv N cc s i i ord w b →
    ∃ b', singleLoop cs k i b = some b' ∧ CInv N cc s s s ord w b' := by
  intro k
  induction k with
  | zero => intro i b h1 h2; rw [Nat.add_zero] at h1; subst h1; exact ⟨b, rfl, h2⟩
  | succ k ih =>
    intro i b h1 h2
    obtain ⟨f, hf⟩ := ho.get i (by omega)
    obtain ⟨b', g1, g2, g3, g4, _⟩ := set_ord ho (k := i) (x := i) (by omega) h2.len (by rw [h2.width]; omega)
    rw [singleLoop, hf, sbind, g1, sbind]
    apply ih (i + 1) b' (by omega)
    refine ⟨g2, by rw [g3, h2.width], fun k hk hk2 => ?_, fun k hk hk2 => ?_, fun k hk hk2 => ?_⟩
    · rw [g4 k hk, if_neg (by omega), h2.un k hk (by omega)]
    · rw [g4 k (by omega)]
      by_cases e : k = i
      · rw [if_pos e, e]
      · rw [if_neg e, h2.sg k (by omega) hk2]
    · omega

theorem memberLoop_spec (ho : Ord L N sigma cs ord) (hN : N < 2 ^ 63) (hsg : sigma ≤ N) (hcc : cc < 2 ^ w) {i : Nat} (hi : i < cc) (his : s ≤ i) : ∀ (k off cur : Nat) (b : Arr), off ≤ cur → s ≤ cur → cur ≤ sigma →
    CInv N cc s cur (i + 1) ord w b → b.xs.count i = off →
    ∃ b', memberLoop cs sigma i k off cur b = some (off + min k (sigma - cur), cur + min k (sigma - cur), b') ∧ CInv N cc s (cur + min k (sigma - cur)) (i + 1) ord w b' ∧
      b'.xs.count i = off + min k (sigma - cur) ∧ ∀ y, y ≠ i → y ≠ cc → b'.xs.count y = b.xs.count y := by
  intro k
  induction k with
  | zero => intro off cur b _ _ _ h2 h3; exact ⟨b, by simp [memberLoop], by simpa using h2, by simpa using h3, fun _ _ _ => rfl⟩
  | succ k ih =>
    intro off cur b h0 h1 h1' h2 h3
    by_cases e : cur < sigma
    · obtain ⟨f, hf⟩ := ho.get cur (by omega)
      obtain ⟨b', g1, g2, g3, g4, g5⟩ := set_ord ho (k := cur) (x := i) (by omega) h2.len (by rw [h2.width]; omega)
      have g6 := g5 cc (h2.un cur (by omega) (Nat.le_refl _))
      obtain ⟨b2, q1, q2, q3, q4⟩ := ih (off + 1) (cur + 1) b' (by omega) (by omega) (by omega) ⟨g2, by rw [g3, h2.width], fun k hk hk2 => by rw [g4 k hk, if_neg (by omega), h2.un k hk (by omega)],
        fun k hk hk2 => by rw [g4 k (by omega), if_neg (by omega), h2.sg k (by omega) hk2], fun k hk hk2 => by
          rw [g4 k (by omega)]
          by_cases e : k = cur
          · rw [if_pos e]; exact ⟨i, rfl, his, by omega⟩
          · rw [if_neg e]; exact h2.as k (by omega) hk2⟩ (by rw [g6 i (by omega), if_pos rfl, h3])
      have hmin : min (k + 1) (sigma - cur) = min k (sigma - (cur + 1)) + 1 := by omega
      refine ⟨b2, ?_, ?_, ?_, fun y hy hy2 => ?_⟩
      · rw [memberLoop, if_pos e, hf, sbind, g1, sbind, add64_eq (by omega), add64_eq (by omega), q1, hmin]
        simp only [Nat.add_assoc, Nat.add_comm 1]
      · rw [hmin, show cur + (min k (sigma - (cur + 1)) + 1) = cur + 1 + min k (sigma - (cur + 1)) by omega]; exact q2
      · rw [q3]; omega
      · rw [q4 y hy hy2, g6 y hy2, if_neg (fun h => hy h.symm)]; rfl
    · have hz : min (k + 1) (sigma - cur) = 0 := by omega
      rw [memberLoop, if_neg e, hz]
      exact ⟨b, rfl, h2, h3, fun _ _ _ => rfl⟩

/-- The widths of the files of the classes. -/
def WInv (byteI : Bool) (s i : Nat) (b : Arr) (ws : List Nat) : Prop := ws.length = i - s ∧ ∀ j, s ≤ j → j < i → ∃ o w, ws[j - s]? = some w ∧ offWidth byteI o = some w ∧ 0 < o ∧ b.xs.count j = o

theorem count_zero (ho : Ord L N sigma cs ord) {cur i : Nat} {b : Arr} (hs : s ≤ i) (hi : i < cc) (h : CInv N cc s cur i ord w b) : b.xs.count i = 0 := by
  rw [List.count_eq_zero]
  intro hm
  obtain ⟨c, hc, hc2⟩ := List.mem_iff_getElem.1 hm
  obtain ⟨k, hk, rfl⟩ := ho.surj c (by rw [← h.len]; exact hc)
  have hg : b.get (ord k) = some i := by rw [Arr.get, List.getElem?_eq_getElem hc, hc2]
  by_cases e : cur ≤ k
  · rw [h.un k hk e] at hg
    injection hg with hg; omega
  · by_cases e2 : k < s
    · rw [h.sg k (by omega) e2] at hg
      injection hg with hg; omega
    · obtain ⟨v, v1, v2, v3⟩ := h.as k (by omega) (by omega)
      rw [v1] at hg
      injection hg with hg; omega

theorem classLoop_spec (ho : Ord L N sigma cs ord) (hN : N < 2 ^ 63) (hsg : sigma ≤ N) (hss : s ≤ sigma) (hcc : cc < 2 ^ w) {hc : Nat} (hcce : cc = hc + s) (hc1 : 2 ^ hc ≤ sigma - s + 1) (hc2 : sigma - s + 1 < 2 ^ (hc + 1)) {byteI : Bool} :
    ∀ (k t cur : Nat) (b : Arr) (ws : List Nat), t + k = hc → cur = min sigma (s + 2 ^ (t + 1) - 2) → CInv N cc s cur (s + t) ord w b → WInv byteI s (s + t) b ws →
    ∃ b' ws', classLoop byteI cs sigma k (s + t) cur (2 ^ t) b ws = some (b', ws') ∧ CInv N cc s sigma cc ord w b' ∧ WInv byteI s cc b' ws' := by
  intro k
  induction k with
  | zero =>
    intro t cur b ws h1 h2 h3 h4
    rw [Nat.add_zero] at h1
    subst h1
    have : cur = sigma := by omega
    rw [this] at h3
    rw [show s + t = cc by omega] at h3 h4
    exact ⟨b, ws, rfl, h3, h4⟩
  | succ k ih =>
    intro t cur b ws h1 h2 h3 h4
    have hpow : 2 ^ (t + 1) ≤ 2 ^ hc := Nat.pow_le_pow_right (by omega) (by omega)
    have hp1 : 1 ≤ 2 ^ t := Nat.one_le_two_pow
    have hp2 : 2 ^ (t + 1) = 2 * 2 ^ t := by rw [Nat.pow_succ]; omega
    have hp3 : 2 ^ (t + 1 + 1) = 2 * 2 ^ (t + 1) := by rw [Nat.pow_succ]; omega
    have hcur : cur = s + 2 ^ (t + 1) - 2 := by omega
    have hcz := count_zero ho (by omega) (by omega : s + t < cc) h3
    obtain ⟨b', g1, g2, g3, g4⟩ := memberLoop_spec ho hN hsg hcc (i := s + t) (by omega) (by omega) (2 ^ (t + 1)) 0 cur b (by omega) (by omega) (by omega)
      ⟨h3.len, h3.width, h3.un, h3.sg, fun k hk hk2 => by
        obtain ⟨v, v1, v2, v3⟩ := h3.as k hk hk2
        exact ⟨v, v1, v2, by omega⟩⟩ hcz
    obtain ⟨o, ho'⟩ : ∃ o, o = min (2 ^ (t + 1)) (sigma - cur) := ⟨_, rfl⟩
    rw [← ho', Nat.zero_add] at g1
    rw [← ho'] at g2 g3
    have hopos : 0 < o := by omega
    have hw : ∃ w, offWidth byteI o = some w := by
      rw [offWidth]
      by_cases e : byteI = true
      · rw [if_pos e]; exact ⟨8, rfl⟩
      · rw [if_neg e]
        obtain ⟨w, hw1, _⟩ := hiW_spec (n := o) (by omega)
        exact ⟨w, hw1⟩
    obtain ⟨w', hw'⟩ := hw
    have hmod : 2 ^ t * 2 % 2 ^ 64 = 2 ^ (t + 1) := by rw [Nat.mod_eq_of_lt (by omega)]; omega
    have hrec := ih (t + 1) (cur + o) b' (ws ++ [w']) (by omega) (by omega) (by rw [← Nat.add_assoc]; exact g2) (by
      refine ⟨by rw [List.length_append, List.length_singleton, h4.1]; omega, fun j hj1 hj2 => ?_⟩
      by_cases e : j = s + t
      · subst e
        refine ⟨o, w', ?_, hw', hopos, by rw [g3]; omega⟩
        rw [List.getElem?_append_right (by rw [h4.1]), h4.1]
        simp
      · obtain ⟨o2, w2, e1, e2, e3, e4⟩ := h4.2 j hj1 (by omega)
        exact ⟨o2, w2, by rw [List.getElem?_append_left (by rw [h4.1]; omega), e1], e2, e3, by rw [g4 j e (by omega), e4]⟩)
    obtain ⟨b2, ws2, q1, q2, q3⟩ := hrec
    refine ⟨b2, ws2, ?_, q2, q3⟩
    rw [classLoop, hmod]
    dsimp only
    rw [g1, sbind]
    dsimp only
    rw [hw', sbind]
    exact q1

/-! ### The files and the object -/

theorem list_eq_B {l : List Nat} (h : l.length = N) : l = B N (sym l) := by
  apply List.ext_getElem (by rw [B_length, h])
  intro i h1 h2
  rw [← sym_lt h1, ← sym_lt h2, B_sym (by omega)]

theorem off_lt_count {K : Nat → Nat} {c : Nat} (hc : c < N) : off N K c < (B N K).count (K c) := by
  have h1 := count_take_mono (B N K) (i := c + 1) (j := (B N K).length) (by rw [B_length]; omega) (K c)
  rw [List.take_length, count_take_succ (by rw [B_length]; exact hc), B_sym hc, if_pos rfl] at h1
  rw [off]; omega

theorem textLoop_spec {K : Nat → Nat} {b : Arr} {c2c : Csa.Wt} {Q : Nat → Prop} {single w2 : Nat} {ws : List Nat} (hb : b.xs = B N K) (hc2c : WtOk c2c (B N K) Q) (hQ : ∀ c, c < N → Q (K c))
    (hcc : cc < 2 ^ 63) (hwl : ws.length = cc - single) (hK : ∀ c ∈ L, c < N ∧ K c < cc ∧ K c < 2 ^ w2) (hw : ∀ c ∈ L, single ≤ K c → ∃ w, ws[K c - single]? = some w ∧ off N K c < 2 ^ w) :
    ∀ (cs pre : List Nat) (cls : List Nat) (offs : List (Nat × List Nat)), L = pre ++ cs → cls = pre.map K → offs.length = ws.length →
      (∀ j, j < ws.length → offs[j]? = some (ws.getD j 0, O pre N K (single + j))) →
      ∃ offs', textLoop b c2c single w2 cs cls offs = some (L.map K, offs') ∧ offs'.length = ws.length ∧ ∀ j, j < ws.length → offs'[j]? = some (ws.getD j 0, O L N K (single + j)) := by
  intro cs
  induction cs with
  | nil =>
    intro pre cls offs h1 h2 h3 h4
    rw [List.append_nil] at h1
    subst h1
    exact ⟨offs, by rw [textLoop, h2], h3, h4⟩
  | cons ch cs ih =>
    intro pre cls offs h1 h2 h3 h4
    have hm : ch ∈ L := by rw [h1]; simp
    obtain ⟨k1, k2, k3⟩ := hK ch hm
    have hget : b.get ch = some (K ch) := by
      rw [Arr.get, hb, B, List.getElem?_map, List.getElem?_range k1]; rfl
    have hO : ∀ j, O (pre ++ [ch]) N K j = if K ch = j then O pre N K j ++ [off N K ch] else O pre N K j := by
      intro j
      rw [O, List.filter_append, List.map_append]
      by_cases e : K ch = j
      · rw [if_pos e, List.filter_cons, if_pos (by simpa using e)]; rfl
      · rw [if_neg e, List.filter_cons, if_neg (by simpa using e)]; simp [O]
    have hstep : ∃ offs2, offStep c2c single ch (K ch) offs = some offs2 ∧ offs2.length = ws.length ∧ ∀ j, j < ws.length → offs2[j]? = some (ws.getD j 0, O (pre ++ [ch]) N K (single + j)) := by
      rw [offStep]
      by_cases e : single ≤ K ch
      · obtain ⟨w, w1, w2⟩ := hw ch hm e
        have hj : K ch - single < ws.length := by omega
        have hr := hc2c.rank ch (K ch) (by rw [B_length]; omega) (hQ ch k1)
        have hwD : ws.getD (K ch - single) 0 = w := by rw [List.getD_eq_getElem?_getD, w1]; rfl
        have hof := h4 _ hj
        rw [hwD, show single + (K ch - single) = K ch by omega] at hof
        rw [if_pos e, hr, sbind, sub64_eq e (by omega), pushOff, hof, sbind]
        have hx : List.count (K ch) (List.take ch (B N K)) % 2 ^ w = off N K ch := Nat.mod_eq_of_lt w2
        refine ⟨_, rfl, by rw [List.length_set, h3], fun j hjw => ?_⟩
        rw [set_get? (by omega), hx, hO]
        by_cases ej : j = K ch - single
        · rw [if_pos ej, ej, hwD, if_pos (by omega), show single + (K ch - single) = K ch by omega]
        · rw [if_neg ej, if_neg (by omega), h4 j hjw]
      · rw [if_neg e]
        refine ⟨offs, rfl, h3, fun j hjw => ?_⟩
        rw [hO, if_neg (by omega), h4 j hjw]
    obtain ⟨offs2, s1, s2, s3⟩ := hstep
    rw [textLoop, hget, sbind, s1, sbind, Nat.mod_eq_of_lt k3]
    exact ih (pre ++ [ch]) _ offs2 (by rw [List.append_assoc]; exact h1) (by rw [h2, List.map_append]; rfl) s2 s3

theorem mapM_spec {α β : Type} {f : α → Option β} : ∀ (l : List α) (P : Nat → β → Prop), (∀ i (h : i < l.length), ∃ y, f l[i] = some y ∧ P i y) →
    ∃ ys, l.mapM f = some ys ∧ ys.length = l.length ∧ ∀ i (h : i < ys.length), P i ys[i]
  | [], P, _ => ⟨[], rfl, rfl, fun i h => by simp at h⟩
  | a :: l, P, h => by
    obtain ⟨y, y1, y2⟩ := h 0 (by simp)
    obtain ⟨ys, z1, z2, z3⟩ := mapM_spec l (fun i => P (i + 1)) (fun i hi => h (i + 1) (by simpa using hi))
    refine ⟨y :: ys, ?_, by simp [z2], fun i hi => ?_⟩
    · rw [List.mapM_cons]
      rw [List.getElem_cons_zero] at y1
      rw [y1, sbind, z1, sbind]; rfl
    · cases i with
      | zero => exact y2
      | succ i => exact z3 i (by simpa using hi)

theorem ds_le (L : List Nat) (N : Nat) : (dsUpto L N).length ≤ L.length := by
  have h2 : (dsUpto L N).Nodup := (dsUpto_sorted _ _).imp (fun h => Nat.ne_of_lt h)
  exact (List.subperm_of_subset h2 (fun x hx => (dsUpto_mem.1 hx).2)).length_le

theorem build_spec {byteB byteI : Bool} {mkB mkI : List Nat → Option Csa.Wt} {Qb Qi : Nat → Prop} (ho : Ord L N sigma cs ord) (hsp : 0 < sigma) (hsN : sigma ≤ N) (hsL : sigma ≤ L.length) (hN : N < 2 ^ 63) (hL : L.length < 2 ^ 63)
    (hmem : ∀ c ∈ L, c < N) (hbI : byteI = true → L.length ≤ 256)
    (hB : ∀ M : List Nat, M ≠ [] → (∀ c ∈ M, c < 128) → M.length ≤ max N L.length → ∃ W, mkB M = some W ∧ WtOk W M Qb) (hQb : ∀ c, c < 128 → Qb c)
    (hI : ∀ M : List Nat, M ≠ [] → (∀ c ∈ M, c < L.length) → M.length ≤ L.length → ∃ W, mkI M = some W ∧ WtOk W M Qi) (hQi : ∀ c, c < L.length → Qi c) :
    ∃ t K, build byteB byteI mkB mkI L cs N sigma = some t ∧ Ok L t N K Qb Qi := by
  obtain ⟨s, hs⟩ : ∃ s, s = Nat.log2 sigma := ⟨_, rfl⟩
  have hs1 : hiN sigma = some s := by rw [hiN, (Select.hiWidth (x := sigma) (by omega)).1, hs]
  have hs2 : 2 ^ s ≤ sigma := (Nat.le_log2 (by omega)).1 (by omega)
  have hs3 : s < 2 ^ s := Nat.lt_two_pow_self
  have hs4 : s < 63 := by rw [hs]; exact (Nat.log2_lt (by omega)).2 (by omega)
  obtain ⟨hc, hhc⟩ : ∃ hc, hc = Nat.log2 (sigma - s + 1) := ⟨_, rfl⟩
  have hc0 : hiN (sigma - s + 1) = some hc := by rw [hiN, (Select.hiWidth (x := sigma - s + 1) (by omega)).1, hhc]
  have hc1 : 2 ^ hc ≤ sigma - s + 1 := (Nat.le_log2 (by omega)).1 (by omega)
  have hc2 : sigma - s + 1 < 2 ^ (hc + 1) := (Nat.log2_lt (by omega)).1 (by omega)
  have hc3 : hc < 64 := by rw [hhc]; exact (Nat.log2_lt (by omega)).2 (by omega)
  obtain ⟨cc, hcc⟩ : ∃ cc, cc = hc + s := ⟨_, rfl⟩
  have hvw : ∀ n, n < 256 → ∃ w, vecWidth byteB n = some w ∧ n < 2 ^ w ∧ IntVec.clampWidth w = w := by
    intro n hn
    rw [vecWidth]
    by_cases e : byteB = true
    · rw [if_pos e]; exact ⟨8, rfl, hn, rfl⟩
    · rw [if_neg e]; exact hiW_spec (by omega)
  obtain ⟨w1, u1, u2, u3⟩ := hvw (cc + 1) (by omega)
  obtain ⟨w2, v1, v2, v3⟩ := hvw cc (by omega)
  obtain ⟨b1, p1, p2⟩ := singleLoop_spec (s := s) (cc := cc) (w := w1) ho (by omega) (by omega) (by omega) s 0 (Arr.new N cc w1) (by omega)
    ⟨by simp [Arr.new], u3, fun k hk _ => by rw [new_get _ _ (ho.lt k hk), u3, Nat.mod_eq_of_lt (by omega)], by omega, by omega⟩
  obtain ⟨b, ws, q1, q2, q3⟩ := classLoop_spec (byteI := byteI) (cc := cc) (w := w1) ho hN hsN (by omega) (by omega) hcc hc1 hc2 hc 0 s b1 [] (by omega) (by omega) p2 ⟨by simp, by omega⟩
  obtain ⟨K, hK⟩ : ∃ K, K = sym b.xs := ⟨_, rfl⟩
  have hbB : b.xs = B N K := by rw [hK]; exact list_eq_B q2.len
  have hKget : ∀ k v, k < N → b.get (ord k) = some v → K (ord k) = v := by
    intro k v hk hv
    rw [hK, sym, List.getD_eq_getElem?_getD]
    rw [Arr.get] at hv
    rw [hv]; rfl
  have hKs : ∀ k, k < s → K (ord k) = k := fun k hk => hKget k k (by omega) (q2.sg k (by omega) hk)
  have hKa : ∀ k, s ≤ k → k < sigma → s ≤ K (ord k) ∧ K (ord k) < cc := by
    intro k h1 h2
    obtain ⟨v, e1, e2, e3⟩ := q2.as k h2 h1
    rw [hKget k v (by omega) e1]; exact ⟨e2, e3⟩
  have hKu : ∀ k, sigma ≤ k → k < N → K (ord k) = cc := fun k h1 h2 => hKget k cc h2 (q2.un k h2 h1)
  have hscc : s < cc := by
    have : 1 ≤ hc := by rw [hhc]; exact (Nat.le_log2 (by omega)).2 (by omega)
    omega
  have hKlt : ∀ k, k < sigma → K (ord k) < cc := by
    intro k hk
    by_cases e : k < s
    · rw [hKs k e]; omega
    · exact (hKa k (by omega) hk).2
  have hKle : ∀ c, c < N → K c ≤ cc := by
    intro c hc
    obtain ⟨k, hk, rfl⟩ := ho.surj c hc
    by_cases e : k < sigma
    · have := hKlt k e; omega
    · rw [hKu k (by omega) hk]
  have hKmem : ∀ c, c < N → (c ∈ L ↔ K c ≠ cc) := by
    intro c hc
    obtain ⟨k, hk, rfl⟩ := ho.surj c hc
    rw [ho.mem k hk]
    by_cases e : k < sigma
    · have := hKlt k e
      exact ⟨fun _ => by omega, fun _ => e⟩
    · exact ⟨fun h => absurd h e, fun h => absurd (hKu k (by omega) hk) h⟩
  have hLpos : 0 < L.length := by omega
  have hLne : L ≠ [] := List.length_pos_iff.1 hLpos
  obtain ⟨c2c, x1, x2⟩ := hB (B N K) (by
    intro e
    have := B_length N K
    rw [e] at this
    simp at this; omega) (by
    intro x hx
    obtain ⟨c, hc, rfl⟩ := List.mem_map.1 hx
    have := hKle c (List.mem_range.1 hc)
    omega) (by rw [B_length]; omega)
  have hcnt : ∀ c ∈ L, s ≤ K c → ∃ o w, ws[K c - s]? = some w ∧ offWidth byteI o = some w ∧ (B N K).count (K c) = o := by
    intro c hm hle
    have hlt : K c < cc := by
      have h1 := hKle c (hmem c hm)
      have h2 := (hKmem c (hmem c hm)).1 hm
      omega
    obtain ⟨o, w, e1, e2, e3, e4⟩ := q3.2 (K c) hle hlt
    exact ⟨o, w, e1, e2, by rw [← hbB, e4]⟩
  have hcle : ∀ j, j < cc → (B N K).count j ≤ sigma := by
    intro j hj
    have hp : (B N K).count j = (List.range N).countP (fun k => K (ord k) == j) := by
      have hperm : ((List.range N).map ord).Perm (List.range N) := by
        have h1 : ((List.range N).map ord).Nodup := by
          rw [List.nodup_map_iff_inj_on List.nodup_range]
          intro x hx y hy e
          exact ho.inj x y (List.mem_range.1 hx) (List.mem_range.1 hy) e
        apply (List.perm_ext_iff_of_nodup h1 List.nodup_range).2
        intro a
        rw [List.mem_map, List.mem_range]
        constructor
        · rintro ⟨k, hk, rfl⟩; exact ho.lt k (List.mem_range.1 hk)
        · intro ha
          obtain ⟨k, hk, rfl⟩ := ho.surj a ha
          exact ⟨k, List.mem_range.2 hk, rfl⟩
      rw [B, List.count_eq_countP, ← (hperm.map K).countP_eq, List.countP_map, List.countP_map]
      rfl
    rw [hp]
    obtain ⟨d, rfl⟩ : ∃ d, N = sigma + d := ⟨N - sigma, by omega⟩
    rw [List.range_add, List.countP_append]
    have h1 := List.countP_le_length (p := fun k => K (ord k) == j) (l := List.range sigma)
    rw [List.length_range] at h1
    have h2 : List.countP (fun k => K (ord k) == j) (List.map (fun x => sigma + x) (List.range d)) = 0 := by
      rw [List.countP_eq_zero]
      intro x hx
      obtain ⟨y, hy, rfl⟩ := List.mem_map.1 hx
      have hy := List.mem_range.1 hy
      rw [hKu (sigma + y) (by omega) (by omega)]
      simp; omega
    omega
  have hoff : ∀ c ∈ L, off N K c < L.length := by
    intro c hm
    have h1 := off_lt_count (K := K) (hmem c hm)
    have h2 := (hKmem c (hmem c hm)).1 hm
    have h3 := hKle c (hmem c hm)
    have h4 := hcle (K c) (by omega)
    omega
  obtain ⟨offs, y1, y2, y3⟩ := textLoop_spec (L := L) (cc := cc) (single := s) (w2 := w2) (ws := ws) hbB x2 (fun c hc => hQb _ (by have := hKle c hc; omega)) (by omega) q3.1
    (fun c hm => by
      have h1 := hKle c (hmem c hm)
      have h2 := (hKmem c (hmem c hm)).1 hm
      exact ⟨hmem c hm, by omega, by omega⟩)
    (fun c hm hle => by
      obtain ⟨o, w, e1, e2, e3⟩ := hcnt c hm hle
      refine ⟨w, e1, ?_⟩
      have h1 := off_lt_count (K := K) (hmem c hm)
      have h2 := hoff c hm
      rw [e3] at h1
      rw [offWidth] at e2
      by_cases e : byteI = true
      · rw [if_pos e] at e2
        injection e2 with e2
        rw [← e2]
        have := hbI e
        omega
      · rw [if_neg e] at e2
        have hoL : o ≤ sigma := by
          have h5 := (hKmem c (hmem c hm)).1 hm
          have h6 := hKle c (hmem c hm)
          rw [← e3]
          exact hcle (K c) (by omega)
        obtain ⟨w', hw1, hw2, _⟩ := hiW_spec (n := o) (by omega)
        rw [hw1] at e2
        injection e2 with e2
        rw [← e2]; omega)
    L [] [] (ws.map (fun w => (w, []))) rfl rfl (by simp) (by
      intro j hj
      rw [List.getElem?_map, List.getElem?_eq_getElem hj]
      simp [O, List.getElem?_eq_getElem hj])
  obtain ⟨cw, z1, z2⟩ := hB (L.map K) (by simpa using hLne) (by
    intro x hx
    obtain ⟨c, hc, rfl⟩ := List.mem_map.1 hx
    have := hKle c (hmem c hc)
    omega) (by rw [List.length_map]; omega)
  have hwsl := q3.1
  obtain ⟨ows, m1, m2, m3⟩ := mapM_spec (f := fun o : Nat × List Nat => mkI o.2) offs (fun j W => WtOk W (O L N K (s + j)) Qi) (by
    intro j hj
    have hj' : j < ws.length := by omega
    have h1 := y3 j hj'
    rw [List.getElem?_eq_getElem hj] at h1
    injection h1 with h1
    rw [h1]
    apply hI
    · obtain ⟨o, w, e1, e2, e3, e4⟩ := q3.2 (s + j) (by omega) (by omega)
      rw [hbB] at e4
      have : s + j ∈ B N K := List.count_pos_iff.1 (by omega)
      obtain ⟨c, hc, hcK⟩ := List.mem_map.1 this
      have hcN := List.mem_range.1 hc
      have hcL := (hKmem c hcN).2 (by omega)
      rw [O, Ne, List.map_eq_nil_iff, List.filter_eq_nil_iff]
      intro h
      exact h c hcL (by simpa using hcK)
    · intro x hx
      obtain ⟨c, hc, rfl⟩ := List.mem_map.1 hx
      exact hoff c (List.mem_filter.1 hc).1
    · rw [O, List.length_map]; exact List.length_filter_le _ _)
  refine ⟨⟨L.length, sigma, s, cc, c2c, cw, ows⟩, K, ?_, ?_⟩
  · have hmin : min N s = s := by omega
    rw [build, hs1, sbind]
    dsimp only
    rw [hmin, sub64_eq (by omega) (by omega), add64_eq (by omega), hc0, sbind, add64_eq (a := hc) (b := s) (by omega), ← hcc, add64_eq (by omega), u1, sbind, p1, sbind, sub64_eq (by omega) (by omega), show cc - s = hc by omega]
    rw [show s + 0 = s from rfl] at q1
    rw [show (1 : Nat) = 2 ^ 0 from rfl, q1, sbind]
    dsimp only
    rw [hbB] at *
    rw [x1, sbind, v1, sbind, y1, sbind]
    dsimp only
    rw [z1, sbind, m1, sbind]
    rfl
  · refine ⟨hL, hN, rfl, hmem, hKmem, fun c hc => by have := hKle c hc; omega, ?_, x2, z2, fun c hc => hQb _ (by have := hKle c hc; omega), ?_, fun c hm => hQi _ (hoff c hm)⟩
    · intro c d hc hd hcd hlt
      dsimp only at hlt
      obtain ⟨k, hk, rfl⟩ := ho.surj c hc
      obtain ⟨j, hj, rfl⟩ := ho.surj d hd
      have key : ∀ k, k < N → K (ord k) < s → k < s := by
        intro k hk h
        by_cases e : k < s
        · exact e
        · exfalso
          by_cases e2 : k < sigma
          · have := hKa k (by omega) e2; omega
          · rw [hKu k (by omega) hk] at h; omega
      have h1 := key k hk hlt
      have h2 := key j hj (by omega)
      rw [hKs k h1, hKs j h2] at hcd
      rw [hcd]
    · intro c hm hle
      dsimp only at hle ⊢
      have h1 := hKle c (hmem c hm)
      have h2 := (hKmem c (hmem c hm)).1 hm
      have hj : K c - s < ows.length := by omega
      refine ⟨_, List.getElem?_eq_getElem hj, ?_⟩
      have := m3 _ hj
      rwa [show s + (K c - s) = K c by omega] at this

theorem new_spec {byteB byteI : Bool} {mkB mkI : List Nat → Option Csa.Wt} {Qb Qi : Nat → Prop} {lb : Nat} (hne : L ≠ []) (hL : L.length < lb) (hlb : lb ≤ 2 ^ 63) (hmem : ∀ c ∈ L, c + 1 < lb) (hbI : byteI = true → L.length ≤ 256)
    (hB : ∀ M : List Nat, M ≠ [] → (∀ c ∈ M, c < 128) → M.length < lb → ∃ W, mkB M = some W ∧ WtOk W M Qb) (hQb : ∀ c, c < 128 → Qb c)
    (hI : ∀ M : List Nat, M ≠ [] → (∀ c ∈ M, c < L.length) → M.length ≤ L.length → ∃ W, mkI M = some W ∧ WtOk W M Qi) (hQi : ∀ c, c < L.length → Qi c) (Q : Nat → Prop) :
    ∃ t, new byteB byteI mkB mkI L = some t ∧ WtOk (Ap.wt t) L Q := by
  have hpos := List.length_pos_iff.2 hne
  obtain ⟨s', N, f1, f2, f3, f4⟩ := freqLoop_spec L [] 0 ⟨[], 0, 0⟩ (fun c hc => by have := hmem c hc; omega) (by rw [List.length_nil]; omega) ⟨by omega, by simp, rfl, rfl, rfl⟩
  rw [List.nil_append] at f2
  have hNlb : N < lb := by
    rcases f4 with f4 | ⟨c, hc, f4⟩
    · omega
    · have := hmem c hc; omega
  obtain ⟨ord, ho⟩ := sort_spec L N
  have hps := f2.pseudo
  have hds : 0 < (dsUpto L N).length := by
    obtain ⟨a, ha⟩ := List.exists_mem_of_ne_nil L hne
    exact List.length_pos_of_mem (dsUpto_mem.2 ⟨f2.mem a ha, ha⟩)
  obtain ⟨t, K, t1, t2⟩ := build_spec (byteB := byteB) (byteI := byteI) (mkB := mkB) (mkI := mkI) (Qb := Qb) (Qi := Qi) ho hds (dsUpto_le L N) (ds_le L N) (by omega) (by omega) f2.mem hbI
    (fun M h1 h2 h3 => hB M h1 h2 (by omega)) hQb hI hQi
  refine ⟨t, ?_, t2.wtOk Q⟩
  rw [new, if_neg (by omega), f1, sbind, f2.cf, f2.maxSym, sub64_eq (by omega) (by omega), show N - s'.pseudo = (dsUpto L N).length by omega, t1]

end Sdsl.Csa.Ap
