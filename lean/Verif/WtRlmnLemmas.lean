/-
  The run-length wavelet tree answers access, rank, select and inverse select.
-/
import Verif.WtRlmn
import Verif.CsaNav
import Verif.CsaAlpha
import Mathlib.Data.Nat.Find

namespace Sdsl.Csa.Rlmn

open _root_.Sdsl.Csa

/-- Position `i` begins a run. -/
def hd (L : List Nat) (i : Nat) : Bool := decide (i = 0 ∨ sym L (i - 1) ≠ sym L i)

/-- The symbols of the runs that begin before `n`. -/
def heads (L : List Nat) : Nat → List Nat
  | 0 => []
  | n + 1 => if hd L n then heads L n ++ [sym L n] else heads L n

/-- The position of the `i`-th symbol in the stably sorted sequence. -/
def F (L : List Nat) (i : Nat) : Nat := smaller L (sym L i) + (L.take i).count (sym L i)

theorem F_lt {L : List Nat} {i : Nat} (h : i < L.length) : F L i < L.length := by
  have h1 := smaller_add_count_le_length L (sym L i)
  have h2 := count_take_mono L (i := i + 1) (j := L.length) h (sym L i)
  rw [count_take_succ h, if_pos rfl, List.take_length] at h2
  rw [F]; omega

theorem F_inj {L : List Nat} {i j : Nat} (hi : i < L.length) (hj : j < L.length) (h : F L i = F L j) : i = j := by
  have key : ∀ i j, i < L.length → j < L.length → sym L i < sym L j → F L i < F L j := by
    intro i j hi hj h
    have h1 := smaller_add_count_le L h
    have h2 := count_take_mono L (i := i + 1) (j := L.length) hi (sym L i)
    rw [count_take_succ hi, if_pos rfl, List.take_length] at h2
    rw [F, F]; omega
  have key2 : ∀ i j, i < j → j < L.length → sym L i = sym L j → F L i < F L j := by
    intro i j hi hj h
    have h2 := count_take_mono L (i := i + 1) (j := j) hi (sym L j)
    rw [count_take_succ (by omega), if_pos h] at h2
    rw [F, F, h]; omega
  rcases Nat.lt_trichotomy (sym L i) (sym L j) with e | e | e
  · have := key i j hi hj e; omega
  · rcases Nat.lt_trichotomy i j with e2 | e2 | e2
    · have := key2 i j e2 hj e; omega
    · exact e2
    · have := key2 j i e2 hi e.symm; omega
  · have := key j i hj hi e; omega

theorem F_surj {L : List Nat} {q : Nat} (h : q < L.length) : ∃ j, j < L.length ∧ F L j = q := by
  have h1 : ((List.range L.length).map (F L)).Nodup := by
    rw [List.nodup_map_iff_inj_on List.nodup_range]
    intro x hx y hy e
    exact F_inj (List.mem_range.1 hx) (List.mem_range.1 hy) e
  have h2 : ((List.range L.length).map (F L)) ⊆ List.range L.length := by
    intro x hx
    obtain ⟨j, hj, rfl⟩ := List.mem_map.1 hx
    exact List.mem_range.2 (F_lt (List.mem_range.1 hj))
  have h3 := (List.subperm_of_subset h1 h2).perm_of_length_le (by simp)
  have := h3.mem_iff.2 (List.mem_range.2 h)
  obtain ⟨j, hj, e⟩ := List.mem_map.1 this
  exact ⟨j, List.mem_range.1 hj, e⟩

/-- What the constructor establishes. -/
structure Ok (L : List Nat) (t : Obj) (Q : Nat → Prop) : Prop where
  pos : 0 < L.length
  lt : L.length < 2 ^ 63
  size : t.size = L.length
  bll : t.bl.length = L.length
  bl : ∀ p, p < L.length → Bv.bit t.bl p = hd L p
  bfl : t.bf.length = L.length + 1
  bfn : Bv.bit t.bf L.length = true
  bf : ∀ j, j < L.length → Bv.bit t.bf (F L j) = hd L j
  wt : WtOk t.wt (heads L L.length) Q
  C : ∀ c ∈ L, t.C.get c = some (smaller L c)
  Cbf : ∀ c ∈ L, t.Cbf.get c = some (Bv.cnt true t.bf (smaller L c))

theorem heads_mem {L : List Nat} : ∀ {n c : Nat}, n ≤ L.length → c ∈ heads L n → c ∈ L
  | 0, _, _, h => by simp [heads] at h
  | n + 1, c, hn, h => by
    rw [heads] at h
    by_cases e : hd L n = true
    · rw [if_pos e, List.mem_append, List.mem_singleton] at h
      rcases h with h | rfl
      · exact heads_mem (by omega) h
      · exact sym_mem (by omega)
    · rw [if_neg e] at h
      exact heads_mem (by omega) h

theorem heads_length_le (L : List Nat) : ∀ n, (heads L n).length ≤ n
  | 0 => by simp [heads]
  | n + 1 => by
    have := heads_length_le L n
    rw [heads]
    split
    · simp; omega
    · omega

theorem heads_prefix {L : List Nat} {i : Nat} : ∀ n, i ≤ n → heads L i <+: heads L n
  | 0, h => by rw [Nat.le_zero.1 h]
  | n + 1, h => by
    by_cases e : i = n + 1
    · rw [e]
    · have := heads_prefix (L := L) (i := i) n (by omega)
      refine this.trans ?_
      rw [heads]
      split
      · exact List.prefix_append _ _
      · exact List.prefix_rfl

theorem hd_zero (L : List Nat) : hd L 0 = true := by simp [hd]

/-- The last run that begins before `i` contains `i - 1`. -/
theorem heads_last {L : List Nat} : ∀ i, ∃ A, heads L (i + 1) = A ++ [sym L i] ∧ ∃ b, b ≤ i ∧ heads L b = A ∧ hd L b = true ∧ ∀ j, b ≤ j → j ≤ i → sym L j = sym L i
  | 0 => ⟨[], by simp [heads, hd_zero], 0, Nat.le_refl _, rfl, hd_zero L, fun j _ h => by rw [Nat.le_zero.1 h]⟩
  | i + 1 => by
    by_cases e : hd L (i + 1) = true
    · exact ⟨heads L (i + 1), by rw [heads, if_pos e], i + 1, Nat.le_refl _, rfl, e, fun j h1 h2 => by rw [Nat.le_antisymm h2 h1]⟩
    · obtain ⟨A, h1, b, h2, h3, h4, h5⟩ := heads_last (L := L) i
      have e2 : sym L i = sym L (i + 1) := by
        simp [hd] at e
        exact e
      refine ⟨A, by rw [heads, if_neg e, h1, e2], b, by omega, h3, h4, fun j j1 j2 => ?_⟩
      by_cases e3 : j = i + 1
      · rw [e3]
      · rw [h5 j j1 (by omega), e2]

theorem count_run {L : List Nat} {c b : Nat} : ∀ i, b ≤ i → i ≤ L.length → (∀ j, b ≤ j → j < i → sym L j = c) → (L.take i).count c = (L.take b).count c + (i - b) := by
  intro i
  induction i with
  | zero => intro h _ _; rw [Nat.le_zero.1 h]; simp
  | succ i ih =>
    intro h1 h2 h3
    by_cases e : b = i + 1
    · rw [e]; simp
    · rw [count_take_succ (by omega), if_pos (h3 i (by omega) (by omega)), ih (by omega) (by omega) (fun j a b => h3 j a (by omega))]
      omega

variable {L : List Nat} {t : Obj} {Q : Nat → Prop}

namespace Ok

theorem cntbl (h : Ok L t Q) : ∀ i, i ≤ L.length → Bv.cnt true t.bl i = (heads L i).length := by
  intro i
  induction i with
  | zero => intro _; rfl
  | succ i ih =>
    intro hi
    rw [Bv.cnt_succ, ih (by omega), h.bl i hi, heads]
    cases hd L i <;> simp

theorem take (h : Ok L t Q) {i : Nat} (hi : i ≤ L.length) : (heads L L.length).take (Bv.cnt true t.bl i) = heads L i := by
  rw [h.cntbl i hi]
  exact (List.prefix_iff_eq_take.1 (heads_prefix _ hi)).symm

/-- Marked positions below those of `c` and of the first occurrences of `c`. -/
theorem cntbf (h : Ok L t Q) (c : Nat) : ∀ i, i ≤ L.length → Bv.cnt true t.bf (smaller L c + (L.take i).count c) = Bv.cnt true t.bf (smaller L c) + (heads L i).count c := by
  intro i
  induction i with
  | zero => intro _; simp [heads]
  | succ i ih =>
    intro hi
    rw [count_take_succ hi, heads]
    by_cases e : sym L i = c
    · have hb := h.bf i hi
      rw [F, e] at hb
      rw [if_pos e, ← Nat.add_assoc, Bv.cnt_succ, ih (by omega), hb]
      cases hd L i
      · simp
      · simp [e, List.count_append]; omega
    · rw [if_neg e, Nat.add_zero, ih (by omega)]
      cases hd L i
      · simp
      · simp [e, List.count_append]

/-- After a run of another symbol, the next position of `c` in sorted order is marked. -/
theorem marked (h : Ok L t Q) {c i : Nat} (hi : i ≤ L.length) (hc : i = 0 ∨ sym L (i - 1) ≠ c) : Bv.bit t.bf (smaller L c + (L.take i).count c) = true := by
  by_cases e : ∃ j, i ≤ j ∧ j < L.length ∧ sym L j = c
  · classical
    obtain ⟨j, ⟨j1, j2, j3⟩, j4⟩ : ∃ j, (i ≤ j ∧ j < L.length ∧ sym L j = c) ∧ ∀ k, k < j → ¬ (i ≤ k ∧ k < L.length ∧ sym L k = c) :=
      ⟨Nat.find e, Nat.find_spec e, fun k hk => Nat.find_min e hk⟩
    have hcount : ∀ k, i ≤ k → k ≤ j → (L.take k).count c = (L.take i).count c := by
      intro k
      induction k with
      | zero => intro h1 _; rw [Nat.le_zero.1 h1]
      | succ k ih =>
        intro h1 h2
        by_cases e : i = k + 1
        · rw [e]
        · rw [count_take_succ (by omega), if_neg (fun e2 => j4 k (by omega) ⟨by omega, by omega, e2⟩), ih (by omega) (by omega)]; rfl
    have hb := h.bf j j2
    rw [F, j3, hcount j j1 (Nat.le_refl _)] at hb
    rw [hb, hd, decide_eq_true_eq]
    by_cases e0 : j = 0
    · exact Or.inl e0
    · right
      rw [j3]
      by_cases e1 : j = i
      · rw [e1]
        rcases hc with hc | hc
        · omega
        · exact hc
      · exact fun e2 => j4 (j - 1) (by omega) ⟨by omega, by omega, e2⟩
  · have hcount : ∀ k, i ≤ k → k ≤ L.length → (L.take k).count c = (L.take i).count c := by
      intro k
      induction k with
      | zero => intro h1 _; rw [Nat.le_zero.1 h1]
      | succ k ih =>
        intro h1 h2
        by_cases e' : i = k + 1
        · rw [e']
        · rw [count_take_succ (by omega), if_neg (fun e2 => e ⟨k, by omega, by omega, e2⟩), ih (by omega) (by omega)]; rfl
    rw [← hcount L.length hi (Nat.le_refl _), List.take_length]
    have hle := smaller_add_count_le_length L c
    by_cases e2 : smaller L c + L.count c = L.length
    · rw [e2]; exact h.bfn
    · obtain ⟨j, hj, hF⟩ := F_surj (L := L) (q := smaller L c + L.count c) (by omega)
      have hb := h.bf j hj
      rw [← hF, hb]
      rw [F] at hF
      have h2 := count_take_mono L (i := j + 1) (j := L.length) hj (sym L j)
      rw [count_take_succ hj, if_pos rfl, List.take_length] at h2
      have h0 : (L.take j).count (sym L j) = 0 := by
        rcases Nat.lt_trichotomy (sym L j) c with e3 | e3 | e3
        · have := smaller_add_count_le L e3; omega
        · rw [e3] at hF h2; omega
        · have := smaller_add_count_le L e3; omega
      rw [hd, decide_eq_true_eq]
      by_cases e0 : j = 0
      · exact Or.inl e0
      · right
        intro e4
        obtain ⟨j, rfl⟩ : ∃ k, j = k + 1 := ⟨j - 1, by omega⟩
        rw [Nat.add_sub_cancel] at e4
        rw [count_take_succ (by omega), if_pos e4] at h0
        omega

/-- The run that contains position `i`, by its number `p`, its begin `b`, and its rank among the runs of its symbol. -/
theorem run (h : Ok L t Q) {i : Nat} (hi : i < L.length) : ∃ p b, Bv.rank true t.bl (i + 1) = some (p + 1) ∧ b ≤ i ∧ Bv.select true t.bl (p + 1) = some b ∧
    p < (heads L L.length).length ∧ sym (heads L L.length) p = sym L i ∧
    Bv.select true t.bf (Bv.cnt true t.bf (smaller L (sym L i)) + ((heads L L.length).take (p + 1)).count (sym L i)) = some (smaller L (sym L i) + (L.take b).count (sym L i)) ∧
    (L.take i).count (sym L i) = (L.take b).count (sym L i) + (i - b) ∧ ((heads L L.length).take (p + 1)).count (sym L i) = ((heads L L.length).take p).count (sym L i) + 1 ∧
    Bv.cnt true t.bl (i + 1) = p + 1 := by
  obtain ⟨A, h1, b, h2, h3, h4, h5⟩ := heads_last (L := L) i
  have hpre := heads_prefix (L := L) (i := i + 1) L.length hi
  have hc1 := h.cntbl (i + 1) hi
  have hcb := h.cntbl b (by omega)
  rw [h1, List.length_append, List.length_singleton] at hc1
  rw [h3] at hcb
  have ht1 := h.take (i := i + 1) hi
  have htb := h.take (i := b) (by omega)
  rw [hc1, h1] at ht1
  rw [hcb, h3] at htb
  have hlen : A.length < (heads L L.length).length := by
    have := hpre.length_le
    rw [h1, List.length_append, List.length_singleton] at this
    omega
  have hbit := h.bl b (by omega)
  rw [h4] at hbit
  have hcount : ((heads L L.length).take (A.length + 1)).count (sym L i) = ((heads L L.length).take A.length).count (sym L i) + 1 := by
    rw [ht1, htb, List.count_append, List.count_singleton_self]
  refine ⟨A.length, b, ?_, h2, ?_, hlen, ?_, ?_, ?_, hcount, hc1⟩
  · rw [Bv.rank_of_le (by rw [h.bll]; exact hi), hc1]
  · have := Bv.select_eq (tb := true) (B := t.bl) (p := b) (by rw [h.bll]; omega) hbit
    rwa [hcb] at this
  · have h6 : (heads L L.length)[A.length]? = ((heads L L.length).take (A.length + 1))[A.length]? := by rw [List.getElem?_take_of_lt (by omega)]
    rw [ht1] at h6
    simp at h6
    rw [sym, List.getD, h6]; rfl
  · have hsb := h5 b (Nat.le_refl _) h2
    have hb := h.bf b (by omega)
    have hlt := F_lt (L := L) (i := b) (by omega)
    rw [F, hsb] at hb hlt
    rw [h4] at hb
    have := Bv.select_eq (tb := true) (B := t.bf) (by rw [h.bfl]; omega) hb
    rw [h.cntbf _ b (by omega), h3] at this
    rw [hcount, htb, ← Nat.add_assoc]
    exact this
  · exact count_run i h2 (by omega) (fun j j1 j2 => h5 j j1 (by omega))

theorem get_spec (h : Ok L t Q) {i : Nat} (hi : i < L.length) : get t i = some (sym L i) := by
  have hlt := h.lt
  obtain ⟨p, b, h1, h2, h3, h4, h5, h6, h7, h8, h9⟩ := h.run hi
  have hp := heads_length_le L L.length
  rw [get, add64_eq (by omega), h1, sbind, sub64_eq (by omega) (by omega), Nat.add_sub_cancel, h.wt.get p h4, h5]

theorem inRun_spec (h : Ok L t Q) {i e p b : Nat} (hi : i < L.length) (he : e = i ∨ e = i + 1) (h1 : Bv.select true t.bl p = some b) {k : Nat}
    (h2 : Bv.select true t.bf (Bv.cnt true t.bf (smaller L (sym L i)) + k) = some (smaller L (sym L i) + (L.take b).count (sym L i))) (hk : k ≤ L.length)
    (h3 : (L.take i).count (sym L i) = (L.take b).count (sym L i) + (i - b)) (hb : b ≤ i) : inRun t e p k (sym L i) = some ((L.take e).count (sym L i)) := by
  have hlt := h.lt
  have hle := smaller_add_count_le_length L (sym L i)
  have hcnt := Bv.cnt_le true t.bf (smaller L (sym L i))
  have hcl := List.count_le_length (a := sym L i) (l := L.take b)
  have h4 := List.length_take_le b L
  have hm := sym_mem hi
  have h5 : (L.take e).count (sym L i) = (L.take b).count (sym L i) + (e - b) := by
    rcases he with rfl | rfl
    · exact h3
    · rw [count_take_succ hi, if_pos rfl, h3]; omega
  rw [inRun, h1, sbind, h.Cbf _ hm, sbind, add64_eq (by omega), h2, sbind, h.C _ hm, sbind, sub64_eq (a := _ + _) (by omega) (by omega), Nat.add_sub_cancel_left,
    add64_eq (by omega), sub64_eq (by omega) (by omega), h5]
  show some _ = _
  congr 1
  omega

theorem count_ne {i c : Nat} (hi : i ≤ L.length) (hc : (heads L i).count c = 0) : (L.take i).count c = 0 := by
  induction i with
  | zero => simp
  | succ i ih =>
    obtain ⟨A, h1, b, h2, h3, h4, h5⟩ := heads_last (L := L) i
    have hpre := heads_prefix (L := L) (i := i) (i + 1) (by omega)
    have := hpre.sublist.count_le c
    rw [count_take_succ hi, ih (by omega) (by omega), if_neg]
    intro e
    rw [h1, e, List.count_append, List.count_singleton_self] at hc
    omega

theorem count_pos_mem {i c : Nat} (hc : (heads L i).count c ≠ 0) (hi : i ≤ L.length) : c ∈ L :=
  heads_mem hi (List.count_pos_iff.1 (Nat.pos_of_ne_zero hc))

theorem rank_spec (h : Ok L t Q) {i c : Nat} (hi : i ≤ L.length) (hc : Q c) : rank t i c = some ((L.take i).count c) := by
  have hlt := h.lt
  rw [rank]
  by_cases e : i = 0
  · rw [if_pos e, e]; simp
  · rw [if_neg e]
    obtain ⟨i, rfl⟩ : ∃ k, i = k + 1 := ⟨i - 1, by omega⟩
    obtain ⟨p, b, h1, h2, h3, h4, h5, h6, h7, h8, h9⟩ := h.run hi
    have hp := heads_length_le L L.length
    have htake := h.take hi
    rw [h9] at htake
    rw [h1, sbind, h.wt.rank (p + 1) c (by omega) hc, sbind, htake]
    by_cases e0 : (heads L (i + 1)).count c = 0
    · rw [if_pos e0, count_ne hi e0]; rfl
    · have hm := count_pos_mem e0 hi
      rw [if_neg e0, sub64_eq (by omega) (by omega), Nat.add_sub_cancel, h.wt.get p h4, sbind, h5]
      have hcl := List.count_le_length (a := c) (l := heads L (i + 1))
      have hhl := heads_length_le L (i + 1)
      by_cases ec : sym L i = c
      · subst ec
        rw [if_pos rfl]
        rw [htake] at h6
        exact h.inRun_spec hi (Or.inr rfl) h3 h6 (by omega) h7 h2
      · rw [if_neg ec]
        have hle := smaller_add_count_le_length L c
        have hcnt := Bv.cnt_le true t.bf (smaller L c)
        have hb := h.marked hi (c := c) (Or.inr (by rw [Nat.add_sub_cancel]; exact ec))
        have hcm := count_take_mono L (i := i + 1) (j := L.length) hi c
        rw [List.take_length] at hcm
        have hs := Bv.select_eq (tb := true) (B := t.bf) (by rw [h.bfl]; omega) hb
        rw [h.cntbf _ _ hi] at hs
        rw [afterRun, h.Cbf _ hm, sbind, add64_eq (b := List.count _ _) (by omega), add64_eq (by omega), hs, sbind, h.C _ hm, sbind, sub64_eq (by omega) (by omega), Nat.add_sub_cancel_left]
        rfl

theorem inverse_spec (h : Ok L t Q) {i : Nat} (hi : i < L.length) : inverseSelect t i = some ((L.take i).count (sym L i), sym L i) := by
  have hlt := h.lt
  have hp := heads_length_le L L.length
  rw [inverseSelect]
  by_cases e : i = 0
  · subst e
    obtain ⟨p, b, h1, h2, h3, h4, h5, h6, h7, h8, h9⟩ := h.run hi
    have hp0 : p = 0 := by
      have : Bv.cnt true t.bl (0 + 1) ≤ 1 := Bv.cnt_le true t.bl 1
      omega
    subst hp0
    rw [if_pos rfl, h.wt.get 0 h4, sbind, h5]; simp
  · rw [if_neg e]
    obtain ⟨p, b, h1, h2, h3, h4, h5, h6, h7, h8, h9⟩ := h.run hi
    rw [add64_eq (by omega), h1, sbind, sub64_eq (by omega) (by omega), Nat.add_sub_cancel, h.wt.inverse p h4, sbind]
    dsimp only
    rw [h5]
    have hcl := List.count_le_length (a := sym L i) (l := (heads L L.length).take p)
    rw [List.length_take] at hcl
    rw [add64_eq (by omega), if_neg (by omega), h.wt.get p h4, sbind, h5, if_pos rfl, ← h8, h.inRun_spec hi (Or.inl rfl) h3 h6 (by omega) h7 h2, sbind]
    rfl

theorem select_spec (h : Ok L t Q) {i : Nat} (hi : i < L.length) : select t ((L.take i).count (sym L i) + 1) (sym L i) = some i := by
  have hlt := h.lt
  have hp := heads_length_le L L.length
  obtain ⟨p, b, h1, h2, h3, h4, h5, h6, h7, h8, h9⟩ := h.run hi
  have hm := sym_mem hi
  have hle := smaller_add_count_le_length L (sym L i)
  have hcm := count_take_mono L (i := i + 1) (j := L.length) hi (sym L i)
  have hcs := count_take_succ hi (sym L i)
  rw [if_pos rfl] at hcs
  rw [List.take_length] at hcm
  have hcnt := Bv.cnt_le true t.bf (smaller L (sym L i))
  have hcl := List.count_le_length (a := sym L i) (l := (heads L L.length).take (p + 1))
  rw [List.length_take] at hcl
  have htake := h.take (i := i + 1) hi
  rw [h9] at htake
  rw [select, h.C _ hm, sbind, add64_eq (by omega), Bv.rank_of_le (by rw [h.bfl]; omega), sbind, h.Cbf _ hm, sbind]
  dsimp only
  rw [← hcs, h.cntbf _ _ hi, ← htake]
  rw [sub64_eq (by omega) (by omega), Nat.add_sub_cancel_left, add64_eq (by omega), Nat.add_comm (List.count _ _) (Bv.cnt true t.bf _), h6, sbind]
  have hsel := h.wt.select p h4
  rw [h5, ← h8] at hsel
  rw [hsel, sbind, add64_eq (by omega), h3, sbind, sub64_eq (b := 1) (by omega) (by omega), sub64_eq (by omega) (by omega), add64_eq (by omega)]
  show some _ = _
  congr 1
  omega

theorem wtOk (h : Ok L t Q) : WtOk (Rlmn.wt t) L Q :=
  ⟨h.size, fun _ hi => h.get_spec hi, fun _ _ hi hc => h.rank_spec hi hc, fun _ hi => h.select_spec hi, fun _ hi => h.inverse_spec hi⟩

end Ok

end Sdsl.Csa.Rlmn
