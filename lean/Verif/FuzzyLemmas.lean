/-
  Correctness of the fuzzy samples.
-/
import Verif.Fuzzy
import Verif.CsaSample
import Verif.CsaPsiNew

namespace Sdsl.Csa

/-- The rule by which the sample `p` of the block `[i, e)` is chosen, if `R` are the rows of the suffixes and `prev` is the row of the previous sample: the smallest row that is
    not smaller than `prev`, or, if all rows are smaller than `prev`, the smallest row. -/
def Choice (R : Nat → Nat) (prev i e p : Nat) : Prop :=
  (prev ≤ R p ∧ ∀ t, i ≤ t → t < e → prev ≤ R t → R p ≤ R t) ∨ (∀ t, i ≤ t → t < e → R t < prev ∧ R p ≤ R t)

theorem fuzzyScan_spec {isa : Arr} {R : Nat → Nat} {n prev hi i : Nat} (hR : ∀ t, t < n → isa.get t = some (R t)) : ∀ (fuel j pm pc : Nat), n - j ≤ fuel → i < j → j ≤ n → j ≤ hi →
    (i ≤ pm ∧ pm < j ∧ ∀ t, i ≤ t → t < j → R pm ≤ R t) →
    (pc = n ∧ (∀ t, i ≤ t → t < j → R t < prev) ∨ (i ≤ pc ∧ pc < j ∧ prev ≤ R pc ∧ ∀ t, i ≤ t → t < j → prev ≤ R t → R pc ≤ R t)) →
    ∃ r, fuzzyScan isa n prev hi fuel j pm pc = some r ∧ i ≤ (if r.2 = n then r.1 else r.2) ∧ (if r.2 = n then r.1 else r.2) < min hi n ∧
      Choice R prev i (min hi n) (if r.2 = n then r.1 else r.2) := by
  intro fuel
  induction fuel with
  | zero =>
    intro j pm pc h1 h2 h3 h4 h5 h6
    obtain ⟨g1, g2, g3⟩ := h5
    have hj : j = n := by omega
    subst hj
    have hm : min hi j = j := by omega
    refine ⟨(pm, pc), by rw [fuzzyScan, if_neg (by omega)], ?_⟩
    dsimp only
    rw [hm]
    rcases h6 with ⟨e, k⟩ | ⟨k1, k2, k3, k4⟩
    · rw [if_pos e]
      exact ⟨g1, g2, .inr (fun t a b => ⟨k t a b, g3 t a b⟩)⟩
    · rw [if_neg (by omega)]
      exact ⟨k1, k2, .inl ⟨k3, k4⟩⟩
  | succ fuel ih =>
    intro j pm pc h1 h2 h3 h4 h5 h6
    obtain ⟨g1, g2, g3⟩ := h5
    by_cases hc : j < hi ∧ j < n
    · rw [fuzzyScan, if_pos hc]
      dsimp only
      rw [hR j hc.2, sbind, hR pm (by omega), sbind]
      have hpm : i ≤ (if R j < R pm then j else pm) ∧ (if R j < R pm then j else pm) < j + 1 ∧ ∀ t, i ≤ t → t < j + 1 → R (if R j < R pm then j else pm) ≤ R t := by
        split
        · refine ⟨by omega, by omega, fun t a b => ?_⟩
          rcases Nat.lt_or_ge t j with h | h
          · have := g3 t a h; omega
          · rw [show t = j by omega]
        · refine ⟨by omega, by omega, fun t a b => ?_⟩
          rcases Nat.lt_or_ge t j with h | h
          · exact g3 t a h
          · rw [show t = j by omega]; omega
      split
      · rename_i hx
        rcases h6 with ⟨e, k⟩ | ⟨k1, k2, k3, k4⟩
        · rw [if_pos e]
          refine ih _ _ _ (by omega) (by omega) (by omega) (by omega) hpm (.inr ⟨by omega, by omega, hx, fun t a b c => ?_⟩)
          rcases Nat.lt_or_ge t j with h | h
          · have := k t a h; omega
          · rw [show t = j by omega]
        · rw [if_neg (by omega), hR pc (by omega), sbind]
          refine ih _ _ _ (by omega) (by omega) (by omega) (by omega) hpm (.inr ?_)
          split
          · refine ⟨by omega, by omega, hx, fun t a b c => ?_⟩
            rcases Nat.lt_or_ge t j with h | h
            · have := k4 t a h c; omega
            · rw [show t = j by omega]
          · refine ⟨k1, by omega, k3, fun t a b c => ?_⟩
            rcases Nat.lt_or_ge t j with h | h
            · exact k4 t a h c
            · rw [show t = j by omega]; omega
      · rename_i hx
        refine ih _ _ _ (by omega) (by omega) (by omega) (by omega) hpm ?_
        rcases h6 with ⟨e, k⟩ | ⟨k1, k2, k3, k4⟩
        · refine .inl ⟨e, fun t a b => ?_⟩
          rcases Nat.lt_or_ge t j with h | h
          · exact k t a h
          · rw [show t = j by omega]; omega
        · refine .inr ⟨k1, by omega, k3, fun t a b c => ?_⟩
          rcases Nat.lt_or_ge t j with h | h
          · exact k4 t a h c
          · rw [show t = j by omega] at c; omega
    · have hm : min hi n = j := by omega
      refine ⟨(pm, pc), by rw [fuzzyScan, if_neg hc], ?_⟩
      dsimp only
      rw [hm]
      rcases h6 with ⟨e, k⟩ | ⟨k1, k2, k3, k4⟩
      · rw [if_pos e]
        exact ⟨g1, g2, .inr (fun t a b => ⟨k t a b, g3 t a b⟩)⟩
      · rw [if_neg (by omega)]
        exact ⟨k1, k2, .inl ⟨k3, k4⟩⟩

theorem fuzzyBlock_spec {isa : Arr} {R : Nat → Nat} {n dens prev i : Nat} (hR : ∀ t, t < n → isa.get t = some (R t)) (hd : 0 < dens) (hn : n + dens < 2 ^ 64) (hi : i < n) :
    ∃ p, fuzzyBlock isa n dens prev i = some p ∧ i ≤ p ∧ p < min (i + dens) n ∧ Choice R prev i (min (i + dens) n) p := by
  rw [fuzzyBlock, hR i hi, sbind, add64_eq (by omega)]
  obtain ⟨r, r1, r2⟩ := fuzzyScan_spec (prev := prev) (hi := i + dens) (i := i) hR n (i + 1) i (if prev ≤ R i then i else n) (by omega) (by omega) (by omega) (by omega)
    ⟨by omega, by omega, fun t a b => by rw [show t = i by omega]⟩ (by
      split
      · rename_i h
        exact .inr ⟨by omega, by omega, h, fun t a b _ => by rw [show t = i by omega]⟩
      · exact .inl ⟨rfl, fun t a b => by rw [show t = i by omega]; omega⟩)
  exact ⟨_, by rw [r1, sbind]; rfl, r2⟩

/-- The samples that the constructor has chosen: one suffix per block, by the rule `Choice`. -/
structure Picked (R : Nat → Nat) (n dens : Nat) (ps : List Nat) : Prop where
  block : ∀ k (h : k < ps.length), k * dens ≤ ps[k] ∧ ps[k] < min (k * dens + dens) n
  choice : ∀ k (h : k < ps.length), Choice R (if k = 0 then 0 else R (ps.getD (k - 1) 0)) (k * dens) (min (k * dens + dens) n) ps[k]

theorem Picked.sorted {R : Nat → Nat} {n dens : Nat} {ps : List Nat} (h : Picked R n dens ps) : ps.Pairwise (· < ·) := by
  rw [List.pairwise_iff_getElem]
  intro a b ha hb hab
  have h1 := (h.block a ha).2
  have h2 := (h.block b hb).1
  have h3 := Nat.mul_le_mul_right dens (show a + 1 ≤ b by omega)
  rw [Nat.succ_mul] at h3
  omega

theorem marks_append {m : List Bool} {ds : List Nat} {p : Nat} (h : Marks m ds) (hp : p < m.length) : Marks (m.set p true) (ds ++ [p]) := by
  refine ⟨fun c hc => ?_, fun q hq => ?_⟩
  · rw [List.length_set]
    rcases List.mem_append.1 hc with h1 | h1
    · exact h.1 c h1
    · rw [List.mem_singleton.1 h1]; exact hp
  · rw [List.length_set] at hq
    rw [Bv.bit_set hp, h.2 q hq]
    by_cases e : q = p
    · simp [e]
    · simp [e]

structure FuzzyInv (R : Nat → Nat) (n dens : Nat) (ps : List Nat) (mi : List Bool) (inv : Arr) (ms : List Bool) : Prop where
  lmi : mi.length = n
  lms : ms.length = n
  linv : inv.xs.length = (n + dens - 1) / dens
  picked : Picked R n dens ps
  mi : Marks mi ps
  ms : Marks ms (ps.map R)
  inv : ∀ k (h : k < ps.length), inv.get k = some (R ps[k])

theorem fuzzyLoop_spec {isa : Arr} {R : Nat → Nat} {n dens : Nat} (hR : ∀ t, t < n → isa.get t = some (R t)) (hRn : ∀ t, t < n → R t < n) (hd : 0 < dens) (hn : n + dens < 2 ^ 64) :
    ∀ (fuel : Nat) (ps : List Nat) (mi : List Bool) (inv : Arr) (ms : List Bool), n - ps.length * dens ≤ fuel → FuzzyInv R n dens ps mi inv ms → n ≤ 2 ^ inv.width →
    ps.length ≤ (n + dens - 1) / dens →
    ∃ ps' mi' inv' ms', fuzzyLoop isa n dens fuel (ps.length * dens) ps.length (if ps.length = 0 then 0 else R (ps.getD (ps.length - 1) 0)) mi inv ms = some (mi', inv', ms') ∧
      FuzzyInv R n dens ps' mi' inv' ms' ∧ ps'.length = (n + dens - 1) / dens := by
  intro fuel
  induction fuel with
  | zero =>
    intro ps mi inv ms h1 h2 h3 h4
    refine ⟨ps, mi, inv, ms, by rw [fuzzyLoop, if_neg (by omega)], h2, ?_⟩
    have := (ceil_lt (n := n) (k := ps.length) hd).1
    by_contra hc
    have := this (by omega)
    omega
  | succ fuel ih =>
    intro ps mi inv ms h1 h2 h3 h4
    by_cases hc : ps.length * dens < n
    · obtain ⟨p, p1, p2, p3, p4⟩ := fuzzyBlock_spec (prev := if ps.length = 0 then 0 else R (ps.getD (ps.length - 1) 0)) hR hd hn hc
      have hp := hRn p (by omega)
      have hlt := (ceil_lt (n := n) (k := ps.length) hd).2 hc
      have hl := h2.linv
      have hm1 := h2.lmi
      have hm2 := h2.lms
      obtain ⟨b, b1, b2, b3, b4⟩ := set_spec (a := inv) (i := ps.length) (x := R p) (by omega) (by omega)
      rw [fuzzyLoop, if_pos hc]
      rw [p1, sbind, hR p (by omega), sbind, Bv.set_of_lt (by omega), sbind, b1, sbind, Bv.set_of_lt (by omega), sbind, add64_eq (by omega)]
      have hlen : (ps ++ [p]).length = ps.length + 1 := by simp
      have hmul : (ps.length + 1) * dens = ps.length * dens + dens := Nat.succ_mul _ _
      have key : FuzzyInv R n dens (ps ++ [p]) (mi.set p true) b (ms.set (R p) true) := by
        refine ⟨by rw [List.length_set]; omega, by rw [List.length_set]; omega, by rw [b2]; exact hl, ⟨fun k h => ?_, fun k h => ?_⟩, marks_append h2.mi (by omega), ?_, fun k h => ?_⟩
        · rw [List.getElem_append]
          split
          · rename_i hk; exact h2.picked.block k hk
          · have : k = ps.length := by omega
            subst this
            rw [List.getElem_singleton]; exact ⟨p2, p3⟩
        · have hg : ∀ t, t < ps.length → (ps ++ [p]).getD t 0 = ps.getD t 0 := by
            intro t ht
            rw [List.getD_eq_getElem?_getD, List.getD_eq_getElem?_getD, List.getElem?_append_left ht]
          by_cases hk : k < ps.length
          · have hch := h2.picked.choice k hk
            rw [List.getElem_append_left hk, hg _ (by omega)]
            exact hch
          · have : k = ps.length := by omega
            subst this
            rw [List.getElem_append_right (by omega), List.getElem_singleton]
            by_cases e : ps.length = 0
            · rw [if_pos e] at p4 ⊢; exact p4
            · rw [if_neg e] at p4 ⊢
              rw [hg _ (by omega)]; exact p4
        · rw [List.map_append]; exact marks_append h2.ms (by omega)
        · rw [b4, List.getElem_append]
          split
          · rename_i e
            rw [dif_neg (by omega), List.getElem_singleton]
          · rw [dif_pos (by omega)]
            exact h2.inv k (by omega)
      have hres := ih (ps ++ [p]) _ _ _ (by rw [hlen]; omega) key (by rw [b3]; exact h3) (by omega)
      rw [hlen, hmul, if_neg (by omega), Nat.add_sub_cancel, show (ps ++ [p]).getD ps.length 0 = p by simp] at hres
      exact hres
    · refine ⟨ps, mi, inv, ms, by rw [fuzzyLoop, if_neg hc], h2, ?_⟩
      have := (ceil_lt (n := n) (k := ps.length) hd).1
      by_contra hc
      have := this (by omega)
      omega

/-- What the constructor has built: the samples `ps`, the marks and the wavelet tree over the ranks of the rows. -/
structure FuzzyOk (s : Fuzzy) (R : Nat → Nat) (n dens : Nat) (ps : List Nat) : Prop where
  lms : s.markedSa.length = n
  lmi : s.markedIsa.length = n
  len : ps.length = (n + dens - 1) / dens
  picked : Picked R n dens ps
  mi : Marks s.markedIsa ps
  ms : Marks s.markedSa (ps.map R)
  wt : WtOk s.inv (ps.map (fun p => Bv.cnt true s.markedSa (R p))) (SymOk .wtInt .int)

theorem mapM_total {α β : Type} {f : α → Option β} {g : α → β} : ∀ (l : List α), (∀ x ∈ l, f x = some (g x)) → l.mapM f = some (l.map g)
  | [], _ => rfl
  | a :: l, h => by
    rw [List.mapM_cons, h a List.mem_cons_self, sbind, mapM_total l (fun x hx => h x (List.mem_cons_of_mem _ hx)), sbind]; rfl

theorem fuzzy_spec {T SA : List Nat} (hT : IsText T) (hS : IsSA T SA) {dens : Nat} (hd : 0 < dens) (hn : T.length < 2 ^ 63) (hdn : dens ≤ 2 ^ 63) :
    ∃ s R ps, fuzzy dens SA = some s ∧ FuzzyOk s R T.length dens ps ∧ (∀ p, p < T.length → R p < T.length ∧ sym SA (R p) = p) := by
  obtain ⟨b, b1, b2, b3⟩ := constructIsa_spec hS (by omega)
  have hl := hS.length
  have hpos := hT.pos
  have hex : ∀ p, p < T.length → ∃ j, j < T.length ∧ sym SA j = p := by
    intro p hp
    obtain ⟨j, h1, h2⟩ := List.mem_iff_getElem.1 (hS.mem.2 hp)
    exact ⟨j, by omega, by rw [sym_lt h1, h2]⟩
  have hR0 : ∀ p, p < T.length → b.get p = some ((b.get p).getD 0) ∧ (b.get p).getD 0 < T.length ∧ sym SA ((b.get p).getD 0) = p := by
    intro p hp
    obtain ⟨j, h1, h2⟩ := hex p hp
    have := b3 j h1
    rw [h2] at this
    rw [this]; exact ⟨rfl, h1, h2⟩
  obtain ⟨R, hRd⟩ : ∃ R : Nat → Nat, R = fun p => (b.get p).getD 0 := ⟨_, rfl⟩
  have hR : ∀ p, p < T.length → b.get p = some (R p) ∧ R p < T.length ∧ sym SA (R p) = p := by rw [hRd]; exact hR0
  obtain ⟨w, w1, w2, w3⟩ := hiW_spec (n := T.length) (by omega)
  have h0 : FuzzyInv R T.length dens [] (List.replicate T.length false) (Arr.new ((T.length + dens - 1) / dens) 0 w) (List.replicate T.length false) := by
    refine ⟨by simp, by simp, Select.Arr.new_xs .., ⟨fun k h => by simp at h, fun k h => by simp at h⟩, ⟨by simp, fun p _ => ?_⟩, ⟨by simp, fun p _ => ?_⟩, fun k h => by simp at h⟩
    · rw [Bv.bit_replicate]; simp
    · rw [Bv.bit_replicate]; simp
  obtain ⟨ps, mi, inv, ms, f1, f2, f3⟩ := fuzzyLoop_spec (isa := b) (fun t ht => (hR t ht).1) (fun t ht => (hR t ht).2.1) hd (by omega) T.length [] _ _ _ (by simp) h0
    (by show T.length ≤ 2 ^ IntVec.clampWidth w; rw [w3]; omega) (by simp)
  have hxs : inv.xs = ps.map R := by
    apply List.ext_getElem
    · rw [f2.linv, List.length_map, f3]
    · intro k h1 h2
      have := f2.inv k (by rw [List.length_map] at h2; exact h2)
      rw [Arr.get, List.getElem?_eq_getElem h1, Option.some.injEq] at this
      rw [List.getElem_map, this]
  have hlms := f2.lms
  have hps : ∀ p ∈ ps, p < T.length := by
    intro p hp
    obtain ⟨k, h1, h2⟩ := List.mem_iff_getElem.1 hp
    have := (f2.picked.block k h1).2
    omega
  have hm : inv.xs.mapM (fun x => Bv.rank true ms x) = some (ps.map (fun p => Bv.cnt true ms (R p))) := by
    rw [hxs, mapM_total (g := fun x => Bv.cnt true ms x) _ (fun x hx => ?_), List.map_map]; rfl
    obtain ⟨p, hp, rfl⟩ := List.mem_map.1 hx
    have := (hR p (hps p hp)).2.1
    exact Bv.rank_of_le (by omega)
  have hlen0 : 0 < ps.length := by rw [f3, ceil_lt hd]; omega
  have hlenT : ps.length ≤ T.length := by
    rw [f3]
    apply Nat.le_of_lt_succ
    rw [Nat.div_lt_iff_lt_mul hd]
    have := Nat.mul_le_mul_left T.length (show 1 ≤ dens by omega)
    rw [Nat.succ_mul]
    omega
  obtain ⟨W, W1, W2⟩ := newWt_spec (tk := .wtInt) (ak := .int) (L := ps.map (fun p => Bv.cnt true ms (R p))) (by
      intro h
      have := congrArg List.length h
      rw [List.length_map, List.length_nil] at this
      omega) (by
      have hb : ∀ c ∈ ps.map (fun p => Bv.cnt true ms (R p)), c < 2 ^ 63 := by
        intro c hc
        obtain ⟨p, hp, rfl⟩ := List.mem_map.1 hc
        have h1 := Bv.cnt_le true ms (R p)
        have h2 := (hR p (hps p hp)).2.1
        omega
      refine ⟨fun h => by rcases h with h | h | h <;> simp [TreeKind.isByte] at h, hb, hb, ?_⟩
      rw [List.length_map]
      show ps.length < 2 ^ 63
      omega)
  refine ⟨⟨ms, mi, W⟩, R, ps, ?_, ⟨hlms, f2.lmi, f3, f2.picked, f2.mi, f2.ms, W2⟩, fun p hp => (hR p hp).2⟩
  rw [List.length_nil, if_pos rfl, Nat.zero_mul] at f1
  rw [fuzzy, b1, sbind, b2, w1, sbind, f1, sbind]
  dsimp only
  rw [hm, sbind, W1, sbind]; rfl

section
variable {T SA : List Nat} {s : Fuzzy} {R : Nat → Nat} {dens : Nat} {ps : List Nat} (h : FuzzyOk s R T.length dens ps) (hR : ∀ p, p < T.length → R p < T.length ∧ sym SA (R p) = p)
include h

theorem FuzzyOk.lt {k : Nat} (hk : k < ps.length) : ps[k] < T.length := by
  have := (h.picked.block k hk).2
  omega

theorem FuzzyOk.selIsa {k : Nat} (hk : k < ps.length) : Bv.select true s.markedIsa (k + 1) = some ps[k] := h.mi.select h.picked.sorted hk

include hR

theorem FuzzyOk.selSa {k : Nat} (hk : k < ps.length) : Bv.select true s.markedSa (Bv.cnt true s.markedSa (R ps[k]) + 1) = some (R ps[k]) := by
  have h1 := (hR _ (h.lt hk)).1
  have h2 := h.lms
  refine Bv.select_eq (tb := true) (by omega) ?_
  rw [h.ms.2 _ (by omega)]
  simp only [decide_eq_true_eq]
  exact List.mem_map_of_mem (List.getElem_mem hk)

theorem FuzzyOk.inj {k l : Nat} (hk : k < ps.length) (hl : l < ps.length) (e : Bv.cnt true s.markedSa (R ps[k]) = Bv.cnt true s.markedSa (R ps[l])) : k = l := by
  have h1 := h.selSa hR hk
  rw [e, h.selSa hR hl, Option.some.injEq] at h1
  have h2 : ps[l] = ps[k] := by rw [← (hR _ (h.lt hl)).2, h1, (hR _ (h.lt hk)).2]
  have hs := List.pairwise_iff_getElem.1 h.picked.sorted
  rcases Nat.lt_trichotomy k l with g | g | g
  · have := hs k l hk hl g; omega
  · exact g
  · have := hs l k hl hk g; omega

theorem FuzzyOk.selInv {k : Nat} (hk : k < ps.length) : s.inv.select 1 (Bv.cnt true s.markedSa (R ps[k])) = some k := by
  have h1 := h.wt.select k (by rw [List.length_map]; exact hk)
  have h2 : sym (ps.map (fun p => Bv.cnt true s.markedSa (R p))) k = Bv.cnt true s.markedSa (R ps[k]) := by
    rw [sym_lt (by rw [List.length_map]; exact hk), List.getElem_map]
  have h3 : ((ps.map (fun p => Bv.cnt true s.markedSa (R p))).take k).count (Bv.cnt true s.markedSa (R ps[k])) = 0 := by
    rw [List.count_eq_zero]
    intro hm
    obtain ⟨l, l1, l2⟩ := List.mem_iff_getElem.1 hm
    rw [List.length_take, List.length_map] at l1
    rw [List.getElem_take, List.getElem_map] at l2
    have := h.inj hR (show l < ps.length by omega) hk l2
    omega
  rw [h2, h3] at h1
  exact h1

theorem FuzzyOk.isaPair {k : Nat} (hk : k < ps.length) : s.isaPair k = some (R ps[k], ps[k]) := by
  rw [Fuzzy.isaPair, h.selIsa hk, sbind, h.wt.get k (by rw [List.length_map]; exact hk), sbind, sym_lt (by rw [List.length_map]; exact hk), List.getElem_map, h.selSa hR hk, sbind]
  rfl

theorem FuzzyOk.sample (hd : 0 < dens) (hT : 0 < T.length) : SaSampleOk s.sample T SA := by
  have hl := h.lms
  have hb : ∀ i, i < T.length → s.sample.isSampled i = some (decide (i ∈ ps.map R)) := by
    intro i hi
    show Bv.get s.markedSa i = _
    rw [Bv.get_of_lt (by omega), h.ms.2 i (by omega)]
  refine ⟨fun i hi => ⟨_, hb i hi, fun e => ?_⟩, ?_⟩
  · rw [decide_eq_true_eq] at e
    obtain ⟨p, hp, rfl⟩ := List.mem_map.1 e
    obtain ⟨k, hk, rfl⟩ := List.mem_iff_getElem.1 hp
    show (Bv.rank true s.markedSa (R ps[k]) >>= fun r => s.inv.select 1 r >>= fun k => Bv.select true s.markedIsa (k + 1)) = _
    rw [Bv.rank_of_le (by omega), sbind, h.selInv hR hk, sbind, h.selIsa hk, (hR _ (h.lt hk)).2]
  · have h0 : 0 < ps.length := by rw [h.len, ceil_lt hd]; omega
    refine ⟨R ps[0], (hR _ (h.lt h0)).1, ?_⟩
    rw [hb _ (hR _ (h.lt h0)).1]
    exact congrArg some (decide_eq_true (List.mem_map_of_mem (List.getElem_mem h0)))

omit hR in
theorem FuzzyOk.div_lt (hd : 0 < dens) {i : Nat} (hi : i < T.length) : i / dens < ps.length := by
  rw [h.len, ceil_lt hd]
  have := Nat.div_mul_le_self i dens
  omega

/-- The sample that `sample_qeq` returns. -/
theorem FuzzyOk.qeq (hd : 0 < dens) (hn : T.length < 2 ^ 64) {i : Nat} (hi : i < T.length) : ∃ k, ∃ hk : k < ps.length, (s.isaSample dens).qeq i = some (R ps[k], ps[k]) ∧
    (i ≤ ps[k] ∧ (∀ l (hl : l < ps.length), i ≤ ps[l] → ps[k] ≤ ps[l]) ∨ k = 0 ∧ ∀ l (hl : l < ps.length), ps[l] < i) := by
  have hc := h.div_lt hd hi
  have hsz : s.inv.size = ps.length := by rw [h.wt.size, List.length_map]
  have hle : ps.length ≤ T.length := by
    rw [h.len]
    apply Nat.le_of_lt_succ
    rw [Nat.div_lt_iff_lt_mul hd]
    have := Nat.mul_le_mul_left T.length (show 1 ≤ dens by omega)
    rw [Nat.succ_mul]
    omega
  have hs := List.pairwise_iff_getElem.1 h.picked.sorted
  have hmod := Nat.div_add_mod' i dens
  have hmlt := Nat.mod_lt i hd
  obtain ⟨c, hcd⟩ : ∃ c, i / dens = c := ⟨_, rfl⟩
  rw [hcd] at hc hmod
  have hbefore : ∀ l (hl : l < ps.length), l < c → ps[l] < i := by
    intro l hl hli
    have := (h.picked.block l hl).2
    have h3 := Nat.mul_le_mul_right dens (show l + 1 ≤ c by omega)
    rw [Nat.succ_mul] at h3
    omega
  show ∃ k, ∃ hk : k < ps.length, (Bv.select true s.markedIsa (i / dens + 1) >>= fun j => if j < i then s.isaPair (if i / dens < sub64 s.inv.size 1 then i / dens + 1 else 0) else s.isaPair (i / dens)) = _ ∧ _
  rw [hcd, h.selIsa hc, sbind]
  split
  · rename_i hlt
    rw [hsz, sub64_eq (by omega) (by omega)]
    split
    · rename_i hk
      refine ⟨c + 1, by omega, h.isaPair hR (by omega), .inl ⟨?_, fun l hl hil => ?_⟩⟩
      · have := (h.picked.block (c + 1) (by omega)).1
        rw [Nat.succ_mul] at this
        omega
      · rcases Nat.lt_trichotomy l (c) with g | g | g
        · have := hbefore l hl g; omega
        · subst g; omega
        · rcases Nat.eq_or_lt_of_le (show c + 1 ≤ l from g) with g | g
          · subst g; exact Nat.le_refl _
          · exact Nat.le_of_lt (hs _ _ _ _ g)
    · refine ⟨0, by omega, h.isaPair hR (by omega), .inr ⟨rfl, fun l hl => ?_⟩⟩
      rcases Nat.eq_or_lt_of_le (show l ≤ c by omega) with g | g
      · subst g; exact hlt
      · exact hbefore l hl g
  · refine ⟨c, hc, h.isaPair hR hc, .inl ⟨by omega, fun l hl hil => ?_⟩⟩
    rcases Nat.lt_trichotomy l (c) with g | g | g
    · have := hbefore l hl g; omega
    · subst g; exact Nat.le_refl _
    · exact Nat.le_of_lt (hs _ _ _ _ g)

/-- The sample that `sample_leq` returns. -/
theorem FuzzyOk.leq (hd : 0 < dens) (hn : T.length < 2 ^ 64) {i : Nat} (hi : i < T.length) : ∃ k, ∃ hk : k < ps.length, (s.isaSample dens).leq i = some (R ps[k], ps[k]) ∧
    (ps[k] ≤ i ∧ (∀ l (hl : l < ps.length), ps[l] ≤ i → ps[l] ≤ ps[k]) ∨ k + 1 = ps.length ∧ ∀ l (hl : l < ps.length), i < ps[l]) := by
  have hc := h.div_lt hd hi
  have hsz : s.inv.size = ps.length := by rw [h.wt.size, List.length_map]
  have hle : ps.length ≤ T.length := by
    rw [h.len]
    apply Nat.le_of_lt_succ
    rw [Nat.div_lt_iff_lt_mul hd]
    have := Nat.mul_le_mul_left T.length (show 1 ≤ dens by omega)
    rw [Nat.succ_mul]
    omega
  have hs := List.pairwise_iff_getElem.1 h.picked.sorted
  have hmod := Nat.div_add_mod' i dens
  have hmlt := Nat.mod_lt i hd
  obtain ⟨c, hcd⟩ : ∃ c, i / dens = c := ⟨_, rfl⟩
  rw [hcd] at hc hmod
  have hafter : ∀ l (hl : l < ps.length), c < l → i < ps[l] := by
    intro l hl hli
    have := (h.picked.block l hl).1
    have h3 := Nat.mul_le_mul_right dens (show c + 1 ≤ l by omega)
    rw [Nat.succ_mul] at h3
    omega
  show ∃ k, ∃ hk : k < ps.length, (Bv.select true s.markedIsa (i / dens + 1) >>= fun j => if i < j then s.isaPair (if 0 < i / dens then i / dens - 1 else sub64 s.inv.size 1) else s.isaPair (i / dens)) = _ ∧ _
  rw [hcd, h.selIsa hc, sbind]
  split
  · rename_i hlt
    rw [hsz, sub64_eq (by omega) (by omega)]
    split
    · rename_i hk
      refine ⟨c - 1, by omega, h.isaPair hR (by omega), .inl ⟨?_, fun l hl hil => ?_⟩⟩
      · have := (h.picked.block (c - 1) (by omega)).2
        have h3 := Nat.succ_mul (c - 1) dens
        rw [show (c - 1).succ = c by omega] at h3
        omega
      · rcases Nat.lt_trichotomy l (c) with g | g | g
        · rcases Nat.eq_or_lt_of_le (show l ≤ c - 1 by omega) with g | g
          · subst g; exact Nat.le_refl _
          · exact Nat.le_of_lt (hs _ _ _ _ g)
        · subst g; omega
        · have := hafter l hl g; omega
    · refine ⟨ps.length - 1, by omega, h.isaPair hR (by omega), .inr ⟨by omega, fun l hl => ?_⟩⟩
      rcases Nat.eq_or_lt_of_le (show c ≤ l by omega) with g | g
      · subst g; exact hlt
      · exact hafter l hl g
  · refine ⟨c, hc, h.isaPair hR hc, .inl ⟨by omega, fun l hl hil => ?_⟩⟩
    rcases Nat.lt_trichotomy l (c) with g | g | g
    · exact Nat.le_of_lt (hs _ _ _ _ g)
    · subst g; exact Nat.le_refl _
    · have := hafter l hl g; omega

end

/-! ### `isa[i]`, `text[i]`, `extract` with samples that may lie anywhere -/

theorem isaGet_wrap {W : Wt} {A : Alpha} {T SA : List Nat} {Q : Nat → Prop} (h : CsaOk W A T SA Q) (hn : T.length < 2 ^ 63) {I : IsaSample} {i v q : Nat} (hi : i < T.length)
    (g1 : I.qeq i = some (v, q)) (g2 : v < T.length) (g3 : sym SA v = q) : ∃ r, isaGet W A I i = some r ∧ r < T.length ∧ sym SA r = i := by
  have hq := h.sa.sym_get_lt g2
  have hfin : ∀ k, (i + k) % T.length = q → ∃ r, lfIter W A k v = some r ∧ r < T.length ∧ sym SA r = i := by
    intro k hk
    obtain ⟨y, y1, y2, y3⟩ := lfIter_spec h k v g2
    refine ⟨y, y1, y2, cancel_mod (h.sa.sym_get_lt y2) hi (k := k) ?_⟩
    rw [← y3, g3, hk]
  rw [isaGet, g1, sbind, h.size]
  dsimp only
  apply hfin
  split
  · rw [add64_eq (by omega), sub64_eq (by omega) (by omega), show i + (q + T.length - i) = q + T.length by omega, Nat.add_mod_right, Nat.mod_eq_of_lt (by omega)]
  · rw [sub64_eq (by omega) (by omega), show i + (q - i) = q by omega, Nat.mod_eq_of_lt (by omega)]

theorem textGet_of_isa {W : Wt} {A : Alpha} {T SA : List Nat} {Q : Nat → Prop} (h : CsaOk W A T SA Q) {I : IsaSample} {i r : Nat} (r1 : isaGet W A I i = some r) (r2 : r < T.length)
    (r3 : sym SA r = i) : textGet W A I i = some (sym T i) := by
  rw [textGet, r1, sbind, h.firstRow_spec r2, r3]

theorem extract_of_isa {W : Wt} {A : Alpha} {T SA : List Nat} {Q : Nat → Prop} (h : CsaOk W A T SA Q) {I : IsaSample} {b e r : Nat} (hbe : b ≤ e) (he : e < T.length)
    (r1 : isaGet W A I e = some r) (r2 : r < T.length) (r3 : sym SA r = e) : extract W A I b e = some ((T.drop b).take (e - b + 1)) := by
  rw [extract, r1, sbind, h.firstRow_spec r2, sbind, extractLoop_spec h (e - b) r e _ r2 (by omega) r3, show e - (e - b) = b by omega, r3]
  rw [List.take_succ_eq_append_getElem (i := e - b) (by rw [List.length_drop]; omega), List.getElem_drop, ← sym_lt, show b + (e - b) = e by omega]

/-- Repeated steps of Psi, with the turn at the end of the text. -/
theorem psiRepeat_wrap {T SA : List Nat} {psi : Nat → Option Nat} (hp : ∀ x, x < T.length → ∃ y, psi x = some y ∧ y < T.length ∧ sym SA y = (sym SA x + 1) % T.length) (hS : IsSA T SA) :
    ∀ (k x : Nat), x < T.length → ∃ y, psiRepeat psi k x = some y ∧ y < T.length ∧ sym SA y = (sym SA x + k) % T.length
  | 0, x, h1 => ⟨x, rfl, h1, by rw [Nat.add_zero, Nat.mod_eq_of_lt (hS.sym_get_lt h1)]⟩
  | k + 1, x, h1 => by
    obtain ⟨z, z1, z2, z3⟩ := hp x h1
    obtain ⟨y, y1, y2, y3⟩ := psiRepeat_wrap hp hS k z z2
    exact ⟨y, by rw [psiRepeat, z1, sbind, y1], y2, by rw [y3, z3, Nat.mod_add_mod]; congr 1; omega⟩

/-- `isa[i]` of a Psi-based CSA with fuzzy samples: correct behind the first sample. In front of it, the number of steps wraps around and the row of another suffix results. -/
theorem isaPsi_fuzzy {T SA : List Nat} {psi : Nat → Option Nat} (hp : ∀ x, x < T.length → ∃ y, psi x = some y ∧ y < T.length ∧ sym SA y = (sym SA x + 1) % T.length) (hS : IsSA T SA)
    (hn : T.length < 2 ^ 64) {I : IsaSample} {i v q : Nat} (hi : i < T.length) (g1 : I.leq i = some (v, q)) (g2 : v < T.length) (g3 : sym SA v = q) :
    ∃ r, isaPsi psi I i = some r ∧ r < T.length ∧ sym SA r = (if q ≤ i then i else (2 ^ 64 + i) % T.length) := by
  obtain ⟨y, y1, y2, y3⟩ := psiRepeat_wrap hp hS (sub64 i q) v g2
  have hq := hS.sym_get_lt g2
  refine ⟨y, by rw [isaPsi, g1, sbind]; exact y1, y2, ?_⟩
  rw [y3, g3]
  split
  · rw [sub64_eq (by omega) (by omega), show q + (i - q) = i by omega, Nat.mod_eq_of_lt hi]
  · rw [sub64, Nat.mod_eq_of_lt (a := i + 2 ^ 64 - q) (by omega), show q + (i + 2 ^ 64 - q) = 2 ^ 64 + i by omega]

end Sdsl.Csa
