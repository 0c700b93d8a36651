/-
  The number of different symbols and the constructor of `wt_gmr_rs`.
-/
import Verif.WtGmrRs
import Mathlib.Data.Finset.Dedup
import Mathlib.Data.Finset.Card

namespace Sdsl.Csa.Gmr

open _root_.Sdsl.Csa

/-! ### m_sigma -/

/-- The number of symbols below `c` that occur in `L`. -/
def occs (L : List Nat) : Nat → Nat
  | 0 => 0
  | c + 1 => occs L c + if L.count c = 0 then 0 else 1

theorem occs_eq (L : List Nat) (M : Nat) : occs L M = (L.toFinset.filter (· < M)).card := by
  induction M with
  | zero => simp [occs]
  | succ M ih =>
    rw [occs, ih]
    by_cases h : L.count M = 0
    · rw [if_pos h, Nat.add_zero]
      congr 1
      ext x
      simp only [Finset.mem_filter, List.mem_toFinset]
      constructor
      · rintro ⟨a, b⟩; exact ⟨a, by omega⟩
      · rintro ⟨a, b⟩
        refine ⟨a, ?_⟩
        rcases Nat.lt_succ_iff_lt_or_eq.1 b with c | rfl
        · exact c
        · exact absurd a (List.count_eq_zero.1 h)
    · rw [if_neg h]
      have hm : M ∈ L := by
        by_contra c
        exact h (List.count_eq_zero.2 c)
      rw [← Finset.card_insert_of_notMem (a := M) (by simp)]
      congr 1
      ext x
      simp only [Finset.mem_filter, List.mem_toFinset, Finset.mem_insert]
      constructor
      · rintro (rfl | ⟨a, b⟩)
        · exact ⟨hm, by omega⟩
        · exact ⟨a, by omega⟩
      · rintro ⟨a, b⟩
        rcases Nat.lt_succ_iff_lt_or_eq.1 b with c | rfl
        · exact .inr ⟨a, c⟩
        · exact .inl rfl

theorem occs_all {L : List Nat} {M : Nat} (h : ∀ c ∈ L, c < M) : occs L M = L.toFinset.card := by
  rw [occs_eq]
  congr 1
  exact Finset.filter_true_of_mem (fun x hx => h x (List.mem_toFinset.1 hx))

theorem sigma_norm (b : List Bool) {K : Nat} (k i : Nat) (w : Bool) (s : Nat) : sigmaLoop b K k i w K s = sigmaLoop b K k i true 0 s := by
  cases k with
  | zero => rfl
  | succ k => simp only [sigmaLoop, ite_self, if_true]

theorem sigma_ones (b : List Bool) {K bl : Nat} (hb : bl ≠ K) : ∀ (m k i : Nat) (w : Bool) (s : Nat), (∀ r, r < m → Bv.get b (i + r) = some true) →
    sigmaLoop b K (m + k) i w bl s = sigmaLoop b K k (i + m) (w && decide (m = 0)) bl (s + if w = true ∧ m ≠ 0 then 1 else 0)
  | 0, k, i, w, s, _ => by rw [Nat.zero_add, Nat.add_zero, decide_eq_true rfl, Bool.and_true, if_neg (by simp), Nat.add_zero]
  | m + 1, k, i, w, s, h => by
    have h0 := h 0 (by omega)
    rw [Nat.add_zero] at h0
    have hr : ∀ r, r < m → Bv.get b (i + 1 + r) = some true := fun r hr => by rw [Nat.add_assoc, Nat.add_comm 1]; exact h (r + 1) (by omega)
    rw [show m + 1 + k = m + k + 1 by omega, sigmaLoop, if_neg hb]
    dsimp only
    rw [h0, sbind, if_pos rfl, decide_eq_false (by omega), Bool.and_false]
    cases w with
    | true =>
      rw [if_pos rfl, sigma_ones b hb m k (i + 1) false (s + 1) hr, Bool.false_and, if_neg (by simp), if_pos ⟨rfl, by omega⟩, Nat.add_zero, show i + 1 + m = i + (m + 1) by omega]
    | false =>
      rw [if_neg (by simp), sigma_ones b hb m k (i + 1) false s hr, Bool.false_and, if_neg (by simp), if_neg (by simp), show i + 1 + m = i + (m + 1) by omega]

theorem sigma_zero (b : List Bool) {K bl : Nat} (hb : bl ≠ K) (k i : Nat) (w : Bool) (s : Nat) (h : Bv.get b i = some false) :
    sigmaLoop b K (k + 1) i w bl s = sigmaLoop b K k (i + 1) w (bl + 1) s := by
  rw [sigmaLoop, if_neg hb]
  dsimp only
  rw [h, sbind, if_neg (by simp)]

theorem sigmaLoop_spec {L : List Nat} {M K bs : Nat} {b : List Bool} {g : Nat → Nat} (h : BlOk L M K bs b g) (hK : 0 < K) :
    ∀ (d c o : Nat), c < M → o < K → c * K + o + d = M * K →
      sigmaLoop b K (d + (pre g (M * K) - pre g (c * K + o))) (c * K + o + 1 + pre g (c * K + o)) (decide (pre g (c * K + o) = pre g (c * K))) o
        (occs L c + if pre g (c * K + o) = pre g (c * K) then 0 else 1) = some (occs L M) := by
  intro d
  induction d with
  | zero =>
    intro c o hc ho e
    have := BlOk.idx (M := M) hc ho
    omega
  | succ d ih =>
    intro c o hc ho e
    have hx := BlOk.idx (M := M) hc ho
    have hp := h.pre_succ hc ho
    have hm := pre_mono g (show c * K + o + 1 ≤ M * K by omega)
    have hm2 := pre_mono g (show c * K ≤ c * K + o by omega)
    have hge := h.g_eq c o hc ho
    rw [show d + 1 + (pre g (M * K) - pre g (c * K + o)) = (chunk bs L o).count c + (d + (pre g (M * K) - pre g (c * K + o + 1)) + 1) by omega,
      sigma_ones b (by omega) _ _ _ _ _ (fun r hr => by
        rw [h.un.get (by omega), h.un.one _ _ hx (by rw [hge]; exact hr)])]
    have hz := h.un.zero (c * K + o + 1) (by omega)
    rw [sigma_zero b (by omega) _ _ _ _ (by
      rw [show c * K + o + 1 + pre g (c * K + o) + (chunk bs L o).count c = c * K + o + 1 + pre g (c * K + o + 1) by omega, h.un.get (by omega), hz])]
    have ew : (decide (pre g (c * K + o) = pre g (c * K)) && decide ((chunk bs L o).count c = 0)) = decide (pre g (c * K + o + 1) = pre g (c * K)) := by
      rw [← Bool.decide_and]
      exact decide_eq_decide.2 (by omega)
    have es : (occs L c + if pre g (c * K + o) = pre g (c * K) then 0 else 1) + (if decide (pre g (c * K + o) = pre g (c * K)) = true ∧ (chunk bs L o).count c ≠ 0 then 1 else 0) =
        occs L c + if pre g (c * K + o + 1) = pre g (c * K) then 0 else 1 := by
      simp only [decide_eq_true_iff]
      by_cases c1 : pre g (c * K + o) = pre g (c * K)
      · by_cases c2 : (chunk bs L o).count c = 0
        · rw [if_pos c1, if_neg (by omega), if_pos (by omega)]
        · rw [if_pos c1, if_pos ⟨c1, c2⟩, if_neg (by omega)]
      · rw [if_neg c1, if_neg (by omega), if_neg (by omega)]
    rw [ew, es, show c * K + o + 1 + pre g (c * K + o) + (chunk bs L o).count c + 1 = c * K + o + 1 + 1 + pre g (c * K + o + 1) by omega]
    by_cases co : o + 1 < K
    · exact ih c (o + 1) hc co (by omega)
    · obtain rfl : K = o + 1 := by omega
      have e1 : c * (o + 1) + o + 1 = (c + 1) * (o + 1) := by rw [Nat.succ_mul]; omega
      have e2 := (pre_blocks h.fit h.g_eq c).1 (by omega)
      have e3 := (pre_blocks h.fit h.g_eq (c + 1)).1 (by omega)
      rw [smaller_succ] at e3
      have e4 : (occs L c + if pre g (c * (o + 1) + o + 1) = pre g (c * (o + 1)) then 0 else 1) = occs L (c + 1) := by
        rw [occs, e1, e3, e2]
        congr 1
        by_cases c1 : L.count c = 0
        · rw [if_pos (by omega), if_pos c1]
        · rw [if_neg (by omega), if_neg c1]
      rw [e4, sigma_norm b]
      by_cases cM : c + 1 = M
      · subst cM
        obtain rfl : d = 0 := by omega
        rw [e1, Nat.sub_self]; rfl
      · have := ih (c + 1) 0 (by omega) (by omega) (by omega)
        rw [if_pos (by rfl)] at this
        rw [← this, e1]
        simp

/-! ### The constructor of wt_gmr_rs -/

theorem maxLoop_le : ∀ (L : List Nat) (m : Nat), m ≤ maxLoop L m ∧ ∀ c ∈ L, c ≤ maxLoop L m
  | [], m => ⟨Nat.le_refl _, by simp⟩
  | c :: L, m => by
    rw [maxLoop]
    obtain ⟨h1, h2⟩ := maxLoop_le L (if m < c then c else m)
    have h3 : m ≤ (if m < c then c else m) ∧ c ≤ (if m < c then c else m) := by split <;> omega
    refine ⟨by omega, fun x hx => ?_⟩
    rcases List.mem_cons.1 hx with rfl | hx
    · omega
    · exact h2 x hx

theorem maxLoop_lt {B : Nat} : ∀ (L : List Nat) (m : Nat), m < B → (∀ c ∈ L, c < B) → maxLoop L m < B
  | [], m, h, _ => h
  | c :: L, m, h, hL => by
    rw [maxLoop]
    refine maxLoop_lt L _ ?_ (fun x hx => hL x (by simp [hx]))
    have := hL c (by simp)
    split <;> omega

theorem ceil_le {n bs : Nat} (hb : 0 < bs) : n ≤ (n + bs - 1) / bs * bs ∧ (n + bs - 1) / bs * bs ≤ n + bs - 1 := by
  have h1 := Nat.div_add_mod (n + bs - 1) bs
  have h2 := Nat.mod_lt (n + bs - 1) hb
  rw [Nat.mul_comm] at h1
  omega

theorem un_of {L : List Nat} {M K bs N : Nat} {tmp : Arr} (hfit : L.length ≤ K * bs) (hlt : ∀ c ∈ L, c < M) (hl : tmp.xs.length = M * K)
    (ht : ∀ c o, c < M → o < K → tmp.get (c * K + o) = some ((chunk bs L o).count c)) (hN : N = L.length + M * K + 1) :
    ∃ b g, unaryLoop tmp tmp.xs.length 0 1 (List.replicate N false) = some b ∧ (∀ c o, c < M → o < K → g (c * K + o) = (chunk bs L o).count c) ∧ Un g (M * K) b := by
  obtain ⟨g, hg⟩ : ∃ g : Nat → Nat, g = fun t => (tmp.get t).getD 0 := ⟨_, rfl⟩
  have hge : ∀ c o, c < M → o < K → g (c * K + o) = (chunk bs L o).count c := by
    intro c o hc ho
    rw [hg]
    show (tmp.get (c * K + o)).getD 0 = _
    rw [ht c o hc ho]; rfl
  have hp := (pre_blocks hfit hge M).1 (Nat.le_refl _)
  rw [smaller_all hlt] at hp
  obtain ⟨b, e1, e2⟩ := unaryLoop_spec (tmp := tmp) (g := g) (n := N) (M * K) 0 (List.replicate N false) (by
    intro t h
    rw [Nat.zero_add, ← hl] at h
    rw [hg]
    show tmp.get t = some ((tmp.get t).getD 0)
    rw [Arr.get, List.getElem?_eq_getElem h]; rfl) (by rw [Nat.zero_add, hp]; omega) (Filled.zero _ _)
  rw [Nat.zero_add] at e2
  refine ⟨b, g, by rw [hl]; exact e1, hge, Filled.un (by rw [hp, show M * K + L.length + 1 = N by omega]; exact e2)⟩

theorem sigma_of {L : List Nat} {M K bs : Nat} {b : List Bool} {g : Nat → Nat} (h : BlOk L M K bs b g) (hM : 0 < M) (h0 : L.length = 0 → K = 0) (hb : 0 < L.length → 0 < K) :
    sigmaLoop b K (b.length - 1) 1 true 0 0 = some L.toFinset.card := by
  rw [← occs_all h.lt]
  by_cases c : L.length = 0
  · have hK := h0 c
    subst hK
    have hl := h.un.len
    rw [Nat.mul_zero] at hl
    obtain rfl := List.length_eq_zero_iff.1 c
    rw [show b.length - 1 = 0 by rw [hl]; rfl]
    rw [sigmaLoop, occs_eq]; rfl
  · have := sigmaLoop_spec h (hb (by omega)) (M * K) 0 0 hM (hb (by omega)) (by omega)
    rw [Nat.zero_mul] at this
    rw [← this, h.un.len]
    simp [pre, occs]

theorem new_zero {n w t : Nat} (h : t < n) : (Arr.new n 0 w).get t = some 0 := by rw [new_get 0 t h, Nat.zero_mod]

theorem rs_new {L : List Nat} (hn : L.length < 2 ^ 62) (hs : ∀ c ∈ L, c < 2 ^ 62) :
    ∃ t g, Rs.new L = some t ∧ RsOk t L g ∧ t.sigma = L.toFinset.card := by
  obtain ⟨B, hB⟩ : ∃ B, B = maxLoop L 0 + 1 := ⟨_, rfl⟩
  have hm := maxLoop_lt L 0 (by omega) hs
  have hlt : ∀ c ∈ L, c < B := fun c hc => by have := (maxLoop_le L 0).2 c hc; omega
  obtain ⟨K, hK⟩ : ∃ K, K = (L.length + B - 1) / B := ⟨_, rfl⟩
  have hc := ceil_le (n := L.length) (bs := B) (by omega)
  rw [← hK] at hc
  rw [Nat.mul_comm] at hc
  obtain ⟨w, w1, w2, w3⟩ := hiW_spec (n := L.length) (by omega)
  obtain ⟨wb, v1, v2, v3⟩ := hiW_spec (n := B) (by omega)
  obtain ⟨tmp, c1, c2, c3⟩ := countLoop_spec (bs := B) (K := K) (M := B) (by omega) (by omega) L [] 0 0 (Arr.new (B * K) 0 wb) (by simp) (by omega) hlt (by rw [Nat.mul_comm]; exact hc.1)
    (by show B < 2 ^ IntVec.clampWidth wb; rw [v3]; exact v2) (by
      intro c o h1 h2
      rw [chunk_nil, new_zero (BlOk.idx h1 h2)]; rfl)
  rw [List.nil_append] at c3
  have c2' : tmp.xs.length = B * K := by rw [c2]; simp [Arr.new]
  have hfit : L.length ≤ K * B := by rw [Nat.mul_comm]; exact hc.1
  obtain ⟨sy, d1, d2, d3, d4⟩ := rowsLoop_spec hfit c3 B 0 (Arr.new B 0 w) (by omega) (by simp [Arr.new]) (by show _ < 2 ^ IntVec.clampWidth w; rw [w3]; exact w2) (by intro t h; omega)
    (fun t _ h => new_zero h)
  have d3' : sy.width = w := by rw [d3]; exact w3
  obtain ⟨b, g, u1, u2, u3⟩ := un_of (N := L.length + B * K + 1) hfit hlt c2' c3 rfl
  have hbl : BlOk L B K B b g := ⟨by omega, hfit, hlt, by omega, u2, u3⟩
  have hsig := sigma_of hbl (by omega) (by
    intro h
    rw [hK, h, Nat.zero_add]
    exact Nat.div_eq_of_lt (by omega)) (by
    intro h
    rcases Nat.eq_zero_or_pos K with e | e
    · rw [e] at hfit; omega
    · exact e)
  have hps : ∀ k, pre (fun c => L.count c) k = smaller L k := pre_smaller L
  obtain ⟨s2, p1, p2, p3, p4⟩ := prefixLoop_spec (h := fun c => L.count c) B 0 sy (by omega) (by rw [Nat.zero_add, hps, smaller_all hlt, d3']; exact w2) (fun t _ h => d4 t (by omega)) (by intro t h; omega)
  obtain ⟨pos, q1, q2, q3⟩ := placeLoop_spec (bs := B) (M := B) (L := L) (by omega) L [] 0 0 s2 (Arr.new L.length 0 wb) rfl (by simp) (by omega) hlt (by omega) (by simp [Arr.new])
    (by rw [p3, d3']; exact w2) (by show B ≤ 2 ^ IntVec.clampWidth wb; rw [v3]; omega) (by
      intro c h
      rw [p4 c (by omega), hps]; rfl) (by intro p h; simp at h)
  refine ⟨⟨b, pos, L.length, B, K, L.toFinset.card⟩, g, ?_, ⟨hbl, rfl, ?_, ?_⟩, rfl⟩
  · unfold Rs.new
    dsimp only
    rw [add64_eq (a := maxLoop L 0) (by omega), ← hB, add64_eq (by omega), sub64_eq (by omega) (by omega), ← hK, w1, sbind, v1, sbind, Nat.mod_eq_of_lt (by omega), c1, sbind, d1, sbind,
      Nat.mod_eq_of_lt (by omega), u1, sbind, hsig, sbind, show prefixLoop B 0 0 sy = some s2 from p1, sbind, q1, sbind]; rfl
  · intro c o hc' ho k hk hks
    dsimp only at *
    obtain ⟨a1, a2, a3⟩ := sym_chunk hk
    have := q3 (o * B + k) a1
    rw [key, ← a3, hks, count_chunk (by omega), ← Nat.add_assoc, ← hbl.pre_eq hc' (by omega)] at this
    rw [this, Nat.add_comm, Nat.add_mul_mod_self_right, Nat.mod_eq_of_lt a2]
  · show B < 2 ^ 64
    omega

end Sdsl.Csa.Gmr
