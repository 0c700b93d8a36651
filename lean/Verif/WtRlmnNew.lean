/-
  The constructor of the run-length wavelet tree.
-/
import Verif.WtRlmnLemmas

namespace Sdsl.Csa.Rlmn

open _root_.Sdsl.Csa

theorem new_xs (n w : Nat) : (Arr.new n 0 w).xs.length = n := List.length_replicate

theorem runLoop_spec {L : List Nat} : ∀ (cs : List Nat) (i last : Nat) (bl : List Bool) (R : List Nat), L.drop i = cs → i ≤ L.length → (0 < i → last = sym L (i - 1)) → bl.length = L.length →
    (∀ p, Bv.bit bl p = (decide (p < i) && hd L p)) → R = heads L i →
    ∃ bl', runLoop cs i last bl R = some (bl', heads L L.length) ∧ bl'.length = L.length ∧ ∀ p, p < L.length → Bv.bit bl' p = hd L p := by
  intro cs
  induction cs with
  | nil =>
    intro i last bl R h1 h2 h3 h4 h5 h6
    have : i = L.length := by
      have := congrArg List.length h1
      rw [List.length_drop, List.length_nil] at this
      omega
    subst this
    exact ⟨bl, by rw [runLoop, h6], h4, fun p hp => by rw [h5 p]; simp [hp]⟩
  | cons c cs ih =>
    intro i last bl R h1 h2 h3 h4 h5 h6
    obtain ⟨g1, g2, g3⟩ := drop_eq h1
    have hiff : (last ≠ c ∨ i = 0) ↔ hd L i = true := by
      rw [hd, decide_eq_true_eq]
      by_cases e : i = 0
      · simp [e]
      · rw [h3 (by omega), g2]; simp [e]
    rw [runLoop]
    by_cases e : hd L i = true
    · rw [if_pos (hiff.2 e), Bv.set_of_lt (by omega), sbind]
      apply ih (i + 1) c _ _ g3 g1 (fun _ => by rw [g2]; rfl) (by simpa using h4)
      · intro p
        rw [Bv.bit_set (by omega), h5 p]
        by_cases ep : p = i
        · rw [if_pos ep, ep, e]; simp
        · rw [if_neg ep]
          have : decide (p < i) = decide (p < i + 1) := by
            apply decide_eq_decide.2; omega
          rw [this]
      · rw [heads, if_pos e, h6, g2]
    · rw [if_neg (fun h => e (hiff.1 h))]
      apply ih (i + 1) c _ _ g3 g1 (fun _ => by rw [g2]; rfl) h4
      · intro p
        rw [h5 p]
        by_cases ep : p = i
        · rw [ep]; simp [e]
        · have : decide (p < i) = decide (p < i + 1) := by
            apply decide_eq_decide.2; omega
          rw [this]
      · rw [heads, if_neg e, h6]

theorem mapGet_spec {L : List Nat} : ∀ {D : List (Nat × Nat)}, (∀ x ∈ D, x.2 = L.count x.1) → ∀ c, mapGet c D = if c ∈ D.map Prod.fst then L.count c else 0
  | [], _, c => by simp [mapGet]
  | (a, k) :: D, h, c => by
    rw [mapGet]
    have h1 := h (a, k) (by simp)
    dsimp only at h1
    by_cases e : a = c
    · rw [if_pos e, if_pos (by simp [e]), h1, e]
    · rw [if_neg e, mapGet_spec (fun x hx => h x (by simp [hx])) c]
      have : c ∈ List.map Prod.fst ((a, k) :: D) ↔ c ∈ List.map Prod.fst D := by
        rw [List.map_cons, List.mem_cons]
        exact ⟨fun h => h.resolve_left (fun h => e h.symm), Or.inr⟩
      by_cases e2 : c ∈ List.map Prod.fst D
      · rw [if_pos e2, if_pos (this.2 e2)]
      · rw [if_neg e2, if_neg (fun h => e2 (this.1 h))]

theorem counts_spec {L : List Nat} {b : Bool} (hne : L ≠ []) (hb : b = true → ∀ c ∈ L, c < 256) (hc : ∀ c ∈ L, c < 2 ^ 63) (hn : L.length < 2 ^ 63) :
    ∃ mC C, counts b L = some (mC, C) ∧ (∀ c ∈ L, c < mC.xs.length) ∧ L.length < 2 ^ mC.width ∧ (∀ c, c < mC.xs.length → C c = some (L.count c)) ∧ (b = true → mC.xs.length = 256) := by
  rw [counts]
  cases b with
  | true =>
    obtain ⟨D, d1, d2, d3⟩ := countSyms_spec (n := 256) L [] (List.replicate 256 0) (hb rfl) (by rw [List.length_replicate]) (by
      intro c hc
      rw [List.length_replicate] at hc
      rw [List.getElem?_replicate, if_pos hc]; rfl) (by rw [List.length_nil]; omega)
    rw [List.length_replicate] at d2 d3
    rw [if_pos rfl, d1, sbind]
    exact ⟨⟨64, D⟩, _, rfl, fun c h => by show c < D.length; rw [d2]; exact hb rfl c h, by show L.length < 2 ^ 64; omega, fun c h => d3 c (by have : c < D.length := h; omega), fun _ => d2⟩
  | false =>
    have hD := map_spec L [] [] ⟨⟨List.Pairwise.nil, by simp⟩, by simp⟩ (by rw [List.length_nil]; omega)
    rw [List.nil_append] at hD
    rw [if_neg (by simp)]
    dsimp only
    obtain ⟨D, hDe⟩ : ∃ D, D = L.foldl (fun D c => mapInc c D) [] := ⟨_, rfl⟩
    rw [← hDe] at hD ⊢
    have hDne : D ≠ [] := by
      obtain ⟨a, ha⟩ := List.exists_mem_of_ne_nil L hne
      intro e
      have := (hD.ds.mem a).2 ha
      rw [e] at this
      simp at this
    obtain ⟨w, hw1, hw2, hw3⟩ := hiW_spec (n := L.length) (by omega)
    rw [List.getLast?_eq_getLast_of_ne_nil hDne, sbind, hw1, sbind]
    have hlm : (D.getLast hDne).1 ∈ L := (hD.ds.mem _).1 (List.mem_map_of_mem (List.getLast_mem hDne))
    have hlt := hc _ hlm
    refine ⟨_, _, rfl, fun c h => ?_, ?_, fun c _ => ?_, by simp⟩
    · rw [new_xs, add64_eq (by omega)]
      have hs := hD.ds.sorted
      have hm := (hD.ds.mem c).2 h
      obtain ⟨k, hk, hkc⟩ := List.mem_iff_getElem.1 hm
      rw [List.length_map] at hk
      have : (D.getLast hDne).1 = (D.map Prod.fst)[D.length - 1]'(by rw [List.length_map]; omega) := by
        rw [List.getElem_map, List.getLast_eq_getElem]
      rw [this, ← hkc]
      by_cases e : k = D.length - 1
      · subst e; omega
      · have := List.pairwise_iff_getElem.1 hs k (D.length - 1) (by rw [List.length_map]; omega) (by rw [List.length_map]; omega) (by omega)
        omega
    · show L.length < 2 ^ IntVec.clampWidth w
      rw [hw3]; exact hw2
    · rw [mapGet_spec hD.val]
      by_cases e : c ∈ L
      · rw [if_pos ((hD.ds.mem c).2 e)]
      · rw [if_neg (fun h => e ((hD.ds.mem c).1 h)), List.count_eq_zero_of_not_mem e]

theorem smaller_succ (L : List Nat) (c : Nat) : smaller L (c + 1) = smaller L c + L.count c := by
  induction L with
  | nil => rfl
  | cons a L ih =>
    rw [smaller, smaller] at *
    rw [List.countP_cons, List.countP_cons, List.count_cons, ih]
    by_cases h1 : a < c
    · have h2 : a < c + 1 := by omega
      have h3 : ¬ a = c := by omega
      simp [h1, h2, h3]; omega
    · by_cases h2 : a = c
      · simp [h2]; omega
      · have h3 : ¬ a < c + 1 := by omega
        simp [h1, h2, h3]

theorem smaller_zero (L : List Nat) : smaller L 0 = 0 := by
  rw [smaller, List.countP_eq_zero]; simp

theorem sumLoop_spec {L : List Nat} {C : Nat → Option Nat} {N w : Nat} (hn : L.length < 2 ^ w) (hn2 : L.length < 2 ^ 63) (hC : ∀ c, c < N → C c = some (L.count c)) : ∀ (k i : Nat) (mC : Arr), i + k = N → mC.xs.length = N →
    mC.width = w → (∀ c, c < i → mC.get c = some (smaller L c)) →
    ∃ mC', sumLoop C k i (smaller L i) mC = some mC' ∧ mC'.xs.length = N ∧ mC'.width = w ∧ ∀ c, c < N → mC'.get c = some (smaller L c) := by
  intro k
  induction k with
  | zero => intro i mC h1 h2 h3 h4; exact ⟨mC, rfl, h2, h3, fun c hc => h4 c (by omega)⟩
  | succ k ih =>
    intro i mC h1 h2 h3 h4
    have hle := smaller_add_count_le_length L i
    obtain ⟨m2, g1, g2, g3, g4⟩ := set_spec (a := mC) (i := i) (x := smaller L i) (by omega) (by rw [h3]; omega)
    rw [sumLoop, g1, sbind, hC i (by omega), sbind, add64_eq (by omega), ← smaller_succ]
    apply ih (i + 1) m2 (by omega) (by omega) (by omega)
    intro c hc
    rw [g4 c]
    by_cases e : c = i
    · rw [if_pos e, e]
    · rw [if_neg e, h4 c (by omega)]

theorem bfLoop_spec {L : List Nat} {bl : List Bool} {w : Nat} (hw : L.length < 2 ^ w) (hbl : bl.length = L.length) (hb : ∀ p, p < L.length → Bv.bit bl p = hd L p) : ∀ (cs : List Nat) (i : Nat) (lf : Arr) (bf : List Bool),
    L.drop i = cs → i ≤ L.length → lf.width = w → (∀ c ∈ L, c < lf.xs.length) → (∀ c ∈ L, lf.get c = some (smaller L c + (L.take i).count c)) → bf.length = L.length + 1 → Bv.bit bf L.length = true →
    (∀ j, j < L.length → Bv.bit bf (F L j) = (decide (j < i) && hd L j)) →
    ∃ bf', bfLoop bl cs i lf bf = some bf' ∧ bf'.length = L.length + 1 ∧ Bv.bit bf' L.length = true ∧ ∀ j, j < L.length → Bv.bit bf' (F L j) = hd L j := by
  intro cs
  induction cs with
  | nil =>
    intro i lf bf h1 h2 h3 h4 h5 h6 h7 h8
    have : i = L.length := by
      have := congrArg List.length h1
      rw [List.length_drop, List.length_nil] at this
      omega
    subst this
    exact ⟨bf, rfl, h6, h7, fun j hj => by rw [h8 j hj]; simp [hj]⟩
  | cons c cs ih =>
    intro i lf bf h1 h2 h3 h4 h5 h6 h7 h8
    obtain ⟨g1, g2, g3⟩ := drop_eq h1
    have hm : c ∈ L := by rw [g2]; exact sym_mem g1
    have hF := F_lt g1
    have hFe : smaller L c + (L.take i).count c = F L i := by rw [F, g2]
    have hdec : ∀ j, j ≠ i → decide (j < i) = decide (j < i + 1) := fun j hj => decide_eq_decide.2 (by omega)
    have hmark : ∃ bf2, mark (hd L i) (F L i) bf = some bf2 ∧ bf2.length = L.length + 1 ∧ Bv.bit bf2 L.length = true ∧ ∀ j, j < L.length → Bv.bit bf2 (F L j) = (decide (j < i + 1) && hd L j) := by
      rw [mark]
      by_cases e : hd L i = true
      · rw [if_pos e, Bv.set_of_lt (by omega)]
        refine ⟨_, rfl, by rw [List.length_set, h6], ?_, fun j hj => ?_⟩
        · rw [Bv.bit_set (by omega), if_neg (by omega), h7]
        · rw [Bv.bit_set (by omega)]
          by_cases ej : j = i
          · rw [ej, if_pos rfl, e]; simp
          · rw [if_neg (fun h => ej (F_inj hj g1 h)), h8 j hj, hdec j ej]
      · rw [if_neg e]
        refine ⟨_, rfl, h6, h7, fun j hj => ?_⟩
        rw [h8 j hj]
        by_cases ej : j = i
        · rw [ej]; simp [e]
        · rw [hdec j ej]
    obtain ⟨bf2, m1, m2, m3, m4⟩ := hmark
    obtain ⟨lf2, l1, l2, l3, l4⟩ := set_spec (a := lf) (i := c) (x := F L i + 1) (h4 c hm) (by rw [h3]; omega)
    rw [bfLoop, Bv.get_of_lt (by omega), sbind, hb i g1, h5 c hm, sbind, hFe, m1, sbind, l1, sbind]
    apply ih (i + 1) lf2 bf2 g3 g1 (by omega) (fun d hd => by rw [l2]; exact h4 d hd) ?_ m2 m3 m4
    intro d hd
    rw [l4 d, count_take_succ g1]
    by_cases e : d = c
    · rw [if_pos e, e, if_pos g2.symm, ← hFe]; rfl
    · rw [if_neg e, h5 d hd, if_neg (fun h => e (by rw [← h, g2])), Nat.add_zero]

theorem rankLoop_spec {L : List Nat} {bf : List Bool} {mC : Arr} {N w : Nat} (hw : L.length < 2 ^ w) (hbf : bf.length = L.length + 1) (hC : ∀ c, c < N → mC.get c = some (smaller L c)) : ∀ (k i : Nat) (r : Arr), i + k = N →
    r.xs.length = N → r.width = w → (∀ c, c < i → r.get c = some (Bv.cnt true bf (smaller L c))) →
    ∃ r', rankLoop bf mC k i r = some r' ∧ ∀ c, c < N → r'.get c = some (Bv.cnt true bf (smaller L c)) := by
  intro k
  induction k with
  | zero => intro i r h1 h2 h3 h4; exact ⟨r, rfl, fun c hc => h4 c (by omega)⟩
  | succ k ih =>
    intro i r h1 h2 h3 h4
    have hle := smaller_add_count_le_length L i
    have hcnt := Bv.cnt_le true bf (smaller L i)
    obtain ⟨m2, g1, g2, g3, g4⟩ := set_spec (a := r) (i := i) (x := Bv.cnt true bf (smaller L i)) (by omega) (by rw [h3]; omega)
    rw [rankLoop, hC i (by omega), sbind, Bv.rank_of_le (by omega), sbind, g1, sbind]
    apply ih (i + 1) m2 (by omega) (by omega) (by omega)
    intro c hc
    rw [g4 c]
    by_cases e : c = i
    · rw [if_pos e, e]
    · rw [if_neg e, h4 c (by omega)]

theorem heads_ne_nil {L : List Nat} (hne : L ≠ []) : heads L L.length ≠ [] := by
  have hpos := List.length_pos_iff.2 hne
  obtain ⟨A, g1, _⟩ := heads_last (L := L) 0
  have := (heads_prefix (L := L) (i := 0 + 1) L.length hpos).length_le
  rw [g1] at this
  intro e
  rw [e] at this
  simp at this

theorem new_spec {byte : Bool} {mk : List Nat → Option Csa.Wt} {L : List Nat} {Q : Nat → Prop} (hne : L ≠ []) (hb : byte = true → ∀ c ∈ L, c < 256) (h3 : ∀ c ∈ L, c < 2 ^ 63) (hn : L.length < 2 ^ 63)
    {W : Csa.Wt} (w1 : mk (heads L L.length) = some W) (w2 : WtOk W (heads L L.length) Q) : ∃ t, new byte mk L = some t ∧ Ok L t Q := by
  have hpos := List.length_pos_iff.2 hne
  obtain ⟨bl, b1, b2, b3⟩ := runLoop_spec (L := L) L 0 0 (List.replicate L.length false) [] rfl (by omega) (by omega) (by simp) (fun p => by rw [Bv.bit_replicate]; simp) rfl
  obtain ⟨mC0, C, c1, c2, c3, c4, c5⟩ := counts_spec (b := byte) hne hb h3 hn
  obtain ⟨mC, s1, s2, s3, s4⟩ := sumLoop_spec c3 hn c4 mC0.xs.length 0 mC0 (by omega) rfl rfl (by omega)
  rw [smaller_zero] at s1
  obtain ⟨bf, f1, f2, f3, f4⟩ := bfLoop_spec (L := L) (bl := bl) (w := mC0.width) c3 b2 b3 L 0 mC ((List.replicate (L.length + 1) false).set L.length true) rfl (by omega) s3 (fun c hc => by rw [s2]; exact c2 c hc)
    (fun c hc => by rw [s4 c (c2 c hc)]; simp) (by simp) (by rw [Bv.bit_set (by simp), if_pos rfl]) (fun j hj => by
      have := F_lt hj
      rw [Bv.bit_set (by simp), if_neg (by omega), Bv.bit_replicate]; simp)
  have hr : ∃ r w, initCbf byte mC L.length = some r ∧ r.xs.length = mC0.xs.length ∧ r.width = w ∧ L.length < 2 ^ w := by
    rw [initCbf]
    by_cases e : byte = true
    · rw [if_pos e]
      exact ⟨_, 64, rfl, by rw [new_xs, c5 e], rfl, by omega⟩
    · obtain ⟨w, hw1, hw2, hw3⟩ := hiW_spec (n := L.length) (by omega)
      rw [if_neg e, hw1, sbind]
      exact ⟨_, w, rfl, by rw [new_xs, s2], hw3, hw2⟩
  obtain ⟨r0, w, r1, r2, r3, r4⟩ := hr
  obtain ⟨r, q1, q2⟩ := rankLoop_spec (L := L) (bf := bf) (mC := mC) (N := mC0.xs.length) r4 f2 s4 mC0.xs.length 0 r0 (by omega) r2 r3 (by omega)
  refine ⟨⟨L.length, bl, bf, W, mC, r⟩, ?_, ?_⟩
  · rw [new, if_neg (by omega), b1, sbind]
    dsimp only
    rw [c1, sbind]
    dsimp only
    rw [s1, sbind, Bv.set_of_lt (by simp), sbind, f1, sbind, w1, sbind, r1, sbind, s2, q1, sbind]
    rfl
  · exact ⟨hpos, hn, rfl, b2, b3, f2, f3, f4, w2, fun c hc => s4 c (c2 c hc), fun c hc => q2 c (c2 c hc)⟩

end Sdsl.Csa.Rlmn
