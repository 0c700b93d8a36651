/-
  The alphabet-partitioned wavelet tree answers access, rank, select and inverse select.
-/
import Verif.WtAp
import Verif.CsaNav
import Verif.CsaAlpha

namespace Sdsl.Csa.Ap

open _root_.Sdsl.Csa

theorem filter_take (L : List Nat) (p : Nat → Bool) (i : Nat) : (L.filter p).take ((L.take i).countP p) = (L.take i).filter p := by
  have h : L.filter p = (L.take i).filter p ++ (L.drop i).filter p := by rw [← List.filter_append, List.take_append_drop]
  rw [h, List.countP_eq_length_filter, List.take_left']
  rfl

theorem filter_getElem {L : List Nat} {p : Nat → Bool} {i : Nat} (hi : i < L.length) (hp : p (sym L i) = true) : (L.filter p)[(L.take i).countP p]? = some (sym L i) := by
  have h : L.filter p = (L.take i).filter p ++ (L.drop i).filter p := by rw [← List.filter_append, List.take_append_drop]
  have h2 : L.drop i = sym L i :: L.drop (i + 1) := by rw [List.drop_eq_getElem_cons hi, sym_lt hi]
  rw [h, List.countP_eq_length_filter, List.getElem?_append_right (Nat.le_refl _), Nat.sub_self, h2, List.filter_cons, if_pos hp]
  rfl

/-- The classes of the symbols below `N`. -/
def B (N : Nat) (K : Nat → Nat) : List Nat := (List.range N).map K

/-- The position of `c` in its class. -/
def off (N : Nat) (K : Nat → Nat) (c : Nat) : Nat := ((B N K).take c).count (K c)

/-- The positions within class `j`. -/
def O (L : List Nat) (N : Nat) (K : Nat → Nat) (j : Nat) : List Nat := (L.filter (fun c => K c == j)).map (off N K)

theorem B_length (N : Nat) (K : Nat → Nat) : (B N K).length = N := by simp [B]

theorem B_sym {N : Nat} {K : Nat → Nat} {c : Nat} (h : c < N) : sym (B N K) c = K c := by
  rw [sym_lt (by rw [B_length]; exact h)]
  simp [B]

theorem off_inj {N : Nat} {K : Nat → Nat} {c d : Nat} (hc : c < N) (hd : d < N) (hk : K c = K d) (h : off N K c = off N K d) : c = d := by
  have key : ∀ c d, c < d → d < N → K c = K d → off N K c < off N K d := by
    intro c d hc hd hk
    have h2 := count_take_mono (B N K) (i := c + 1) (j := d) hc (K d)
    rw [count_take_succ (by rw [B_length]; omega), B_sym (by omega), if_pos hk] at h2
    rw [off, off, hk]; omega
  rcases Nat.lt_trichotomy c d with e | e | e
  · have := key c d e hd hk; omega
  · exact e
  · have := key d c e hc hk.symm; omega

/-- What the constructor establishes. -/
structure Ok (L : List Nat) (t : Obj) (N : Nat) (K : Nat → Nat) (Qb Qi : Nat → Prop) : Prop where
  lt : L.length < 2 ^ 63
  Nlt : N < 2 ^ 63
  size : t.size = L.length
  mem : ∀ c ∈ L, c < N
  abs : ∀ c, c < N → (c ∈ L ↔ K c ≠ t.classCnt)
  Klt : ∀ c, c < N → K c < 2 ^ 63
  single : ∀ c d, c < N → d < N → K c = K d → K c < t.single → c = d
  c2c : WtOk t.char2class (B N K) Qb
  cls : WtOk t.cls (L.map K) Qb
  qb : ∀ c, c < N → Qb (K c)
  off : ∀ c ∈ L, t.single ≤ K c → ∃ w, t.offset[K c - t.single]? = some w ∧ WtOk w (O L N K (K c)) Qi
  qi : ∀ c ∈ L, Qi (Ap.off N K c)

variable {L : List Nat} {t : Obj} {N : Nat} {K : Nat → Nat} {Qb Qi : Nat → Prop}

namespace Ok

theorem offAt_spec (h : Ok L t N K Qb Qi) {c : Nat} (hc : c ∈ L) (hs : t.single ≤ K c) : ∃ w, offAt t (K c) = some w ∧ WtOk w (O L N K (K c)) Qi := by
  have h1 := h.Klt c (h.mem c hc)
  obtain ⟨w, w1, w2⟩ := h.off c hc hs
  exact ⟨w, by rw [offAt, sub64_eq hs (by omega), w1], w2⟩

theorem off_single (h : Ok L t N K Qb Qi) {c : Nat} (hc : c < N) (hs : K c < t.single) : Ap.off N K c = 0 := by
  rw [Ap.off, List.count_eq_zero]
  intro hm
  obtain ⟨d, hd, hd2⟩ := List.mem_iff_getElem.1 hm
  rw [List.length_take, B_length] at hd
  have hdN : d < N := by omega
  rw [List.getElem_take] at hd2
  have : K d = K c := by
    rw [← hd2, ← sym_lt (T := B N K) (by rw [B_length]; exact hdN), B_sym hdN]
  have := h.single d c hdN hc this (by omega)
  omega

theorem sel_char (h : Ok L t N K Qb Qi) {c : Nat} (hc : c < N) : t.char2class.select (Ap.off N K c + 1) (K c) = some c := by
  have := h.c2c.select c (by rw [B_length]; exact hc)
  rwa [B_sym hc] at this

theorem off_lt {c : Nat} (hc : c < N) : Ap.off N K c < N := by
  have := List.count_le_length (a := K c) (l := (B N K).take c)
  rw [List.length_take, B_length] at this
  rw [Ap.off]; omega

theorem sym_map {i : Nat} (hi : i < L.length) : sym (L.map K) i = K (sym L i) := by
  rw [sym_lt (by simpa using hi), sym_lt hi]; simp

theorem count_map (i j : Nat) : ((L.map K).take i).count j = (L.take i).countP (fun c => K c == j) := by
  rw [← List.map_take, List.count_eq_countP, List.countP_map]
  rfl

theorem O_get {i : Nat} (hi : i < L.length) : ((L.take i).countP (fun c => K c == K (sym L i))) < (O L N K (K (sym L i))).length ∧
    sym (O L N K (K (sym L i))) ((L.take i).countP (fun c => K c == K (sym L i))) = Ap.off N K (sym L i) := by
  have h := filter_getElem (p := fun c => K c == K (sym L i)) hi (by simp)
  obtain ⟨h1, h2⟩ := List.getElem?_eq_some_iff.1 h
  refine ⟨by rw [O, List.length_map]; exact h1, ?_⟩
  rw [sym_lt (by rw [O, List.length_map]; exact h1)]
  simp only [O, List.getElem_map, h2]

theorem O_count (h : Ok L t N K Qb Qi) {c : Nat} (hc : c < N) (i : Nat) : ((O L N K (K c)).take ((L.take i).countP (fun d => K d == K c))).count (Ap.off N K c) = (L.take i).count c := by
  rw [O, ← List.map_take, filter_take, List.count_eq_countP, List.countP_map, List.countP_filter, List.count_eq_countP]
  apply List.countP_congr
  intro d hd
  have hdN := h.mem d (List.mem_of_mem_take hd)
  simp only [Function.comp, Bool.and_eq_true, beq_iff_eq]
  constructor
  · rintro ⟨h1, h2⟩; exact off_inj hdN hc h2 h1
  · rintro rfl; exact ⟨rfl, rfl⟩

theorem single_count (h : Ok L t N K Qb Qi) {c : Nat} (hc : c < N) (hs : K c < t.single) (i : Nat) : (L.take i).countP (fun d => K d == K c) = (L.take i).count c := by
  rw [List.count_eq_countP]
  apply List.countP_congr
  intro d hd
  have hdN := h.mem d (List.mem_of_mem_take hd)
  rw [beq_iff_eq, beq_iff_eq]
  constructor
  · intro h1; exact h.single d c hdN hc h1 (by omega)
  · rintro rfl; rfl

theorem get_spec (h : Ok L t N K Qb Qi) {i : Nat} (hi : i < L.length) : get t i = some (sym L i) := by
  have hm := sym_mem hi
  have hc := h.mem _ hm
  have hN := h.Nlt
  have hol := off_lt (K := K) hc
  have hinv := h.cls.inverse i (by simpa using hi)
  rw [sym_map hi, count_map] at hinv
  rw [get, hinv, sbind]
  dsimp only
  by_cases e : K (sym L i) < t.single
  · rw [if_pos e, sbind]
    have := h.sel_char hc
    rw [h.off_single hc e] at this
    exact this
  · obtain ⟨w, w1, w2⟩ := h.offAt_spec hm (by omega)
    obtain ⟨o1, o2⟩ := O_get (N := N) (K := K) hi
    rw [if_neg e, w1, sbind, w2.get _ o1, o2, sbind, add64_eq (by omega), h.sel_char hc]

theorem inverse_spec (h : Ok L t N K Qb Qi) {i : Nat} (hi : i < L.length) : inverseSelect t i = some ((L.take i).count (sym L i), sym L i) := by
  have hm := sym_mem hi
  have hc := h.mem _ hm
  have hN := h.Nlt
  have hol := off_lt (K := K) hc
  have hinv := h.cls.inverse i (by simpa using hi)
  rw [sym_map hi, count_map] at hinv
  rw [inverseSelect, hinv, sbind]
  dsimp only
  by_cases e : K (sym L i) < t.single
  · have := h.sel_char hc
    rw [h.off_single hc e] at this
    rw [if_pos e, this, sbind, h.single_count hc e]; rfl
  · obtain ⟨w, w1, w2⟩ := h.offAt_spec hm (by omega)
    obtain ⟨o1, o2⟩ := O_get (N := N) (K := K) hi
    rw [if_neg e, w1, sbind, w2.inverse _ o1, o2, sbind]
    dsimp only
    rw [add64_eq (by omega), h.sel_char hc, sbind, h.O_count hc]; rfl

theorem classOffset_spec (h : Ok L t N K Qb Qi) (c : Nat) : classOffset t c = some (if c ∈ L then some (K c, Ap.off N K c) else none) := by
  have hsz := h.c2c.size
  rw [B_length] at hsz
  rw [classOffset, hsz]
  by_cases e : N ≤ c
  · rw [if_pos e, if_neg (fun hm => by have := h.mem c hm; omega)]
  · have hc : c < N := by omega
    have hi := h.c2c.inverse c (by rw [B_length]; exact hc)
    rw [B_sym hc] at hi
    rw [if_neg e, hi, sbind]
    dsimp only
    by_cases hm : c ∈ L
    · rw [if_pos hm, if_neg ((h.abs c hc).1 hm)]; rfl
    · rw [if_neg hm, if_pos (Classical.not_not.1 (fun h' => hm ((h.abs c hc).2 h')))]; rfl

theorem rank_spec (h : Ok L t N K Qb Qi) {i : Nat} (c : Nat) (hi : i ≤ L.length) : rank t i c = some ((L.take i).count c) := by
  rw [rank, h.classOffset_spec c, sbind]
  by_cases hm : c ∈ L
  · rw [if_pos hm]
    dsimp only
    have hc := h.mem c hm
    rw [h.cls.rank i (K c) (by simpa using hi) (h.qb c hc), sbind, count_map]
    by_cases e : K c < t.single
    · rw [if_pos e, h.single_count hc e]; rfl
    · obtain ⟨w, w1, w2⟩ := h.offAt_spec hm (by omega)
      have hle : (L.take i).countP (fun d => K d == K c) ≤ (O L N K (K c)).length := by
        rw [O, List.length_map, ← List.countP_eq_length_filter]
        exact (List.take_sublist i L).countP_le
      rw [if_neg e, w1, sbind, w2.rank _ _ hle (h.qi c hm), h.O_count hc]
  · rw [if_neg hm]
    dsimp only
    rw [List.count_eq_zero_of_not_mem (fun h' => hm (List.mem_of_mem_take h'))]
    rfl

theorem select_spec (h : Ok L t N K Qb Qi) {i : Nat} (hi : i < L.length) : select t ((L.take i).count (sym L i) + 1) (sym L i) = some i := by
  have hm := sym_mem hi
  have hc := h.mem _ hm
  have hlt := h.lt
  have hs := h.cls.select i (by simpa using hi)
  rw [sym_map hi, count_map] at hs
  rw [select, h.classOffset_spec, sbind, if_pos hm]
  dsimp only
  by_cases e : K (sym L i) < t.single
  · rw [h.single_count hc e] at hs
    rw [if_pos e, sbind, hs]
  · obtain ⟨w, w1, w2⟩ := h.offAt_spec hm (by omega)
    obtain ⟨o1, o2⟩ := O_get (N := N) (K := K) hi
    have hsel := w2.select _ o1
    rw [o2, h.O_count hc] at hsel
    have hle := List.countP_le_length (p := fun c => K c == K (sym L i)) (l := L.take i)
    rw [List.length_take] at hle
    rw [if_neg e, w1, sbind, hsel, sbind]
    show t.cls.select _ _ = _
    rw [add64_eq (by omega), Nat.add_comm, hs]

theorem wtOk (h : Ok L t N K Qb Qi) (Q : Nat → Prop) : WtOk (Ap.wt t) L Q :=
  ⟨h.size, fun _ hi => h.get_spec hi, fun _ c hi _ => h.rank_spec c hi, fun _ hi => h.select_spec hi, fun _ hi => h.inverse_spec hi⟩

end Ok

end Sdsl.Csa.Ap
