/-
  Correctness of the sampling strategies and of the accesses `csa[i]`, `csa.isa[i]`, `csa.text[i]`, `extract` of `csa_wt`.
-/
import Verif.CsaNav
import Verif.InvPermLemmas
import Verif.SelectBuild

namespace Sdsl.Csa

theorem hiW_spec {n : Nat} (h : n < 2 ^ 64) : ∃ w, hiW n = some w ∧ n < 2 ^ w ∧ IntVec.clampWidth w = w := by
  obtain ⟨h1, h2, h3⟩ := Select.hiWidth h
  refine ⟨Nat.log2 n + 1, ?_, h2, h3⟩
  rw [hiW, h1, sbind]; rfl

theorem new_get {n w : Nat} (x t : Nat) (h : t < n) : (Arr.new n x w).get t = some (x % 2 ^ IntVec.clampWidth w) := by
  rw [Arr.get, Arr.new, List.getElem?_replicate, if_pos h]

theorem set_spec {a : Arr} {i x : Nat} (h : i < a.xs.length) (hx : x < 2 ^ a.width) :
    ∃ b, a.set i x = some b ∧ b.xs.length = a.xs.length ∧ b.width = a.width ∧ ∀ t, b.get t = if t = i then some x else a.get t := by
  refine ⟨_, Arr.set_of_lt h, by simp, rfl, fun t => ?_⟩
  rw [Arr.get, List.getElem?_set, Nat.mod_eq_of_lt hx]
  by_cases e : i = t
  · subst e; rw [if_pos rfl, if_pos h, if_pos rfl]
  · rw [if_neg e, if_neg (fun h => e h.symm)]; rfl

theorem sym_drop (l : List Nat) (i : Nat) : sym (l.drop i) 0 = sym l i := by
  rw [sym, sym, List.getD_eq_getElem?_getD, List.getD_eq_getElem?_getD, List.getElem?_drop, Nat.add_zero]

theorem drop_eq {l ps : List Nat} {i p : Nat} (h : l.drop i = p :: ps) : i < l.length ∧ p = sym l i ∧ l.drop (i + 1) = ps := by
  have h1 : i < l.length := by
    have := congrArg List.length h
    rw [List.length_drop, List.length_cons] at this
    omega
  refine ⟨h1, ?_, ?_⟩
  · rw [← sym_drop, h]; rfl
  · rw [show i + 1 = i + 1 by rfl, ← List.drop_drop, h]; rfl

/-! ### `_sa_order_sampling` -/

theorem saOrderLoop_spec {dens : Nat} (hd : 0 < dens) {SA : List Nat} : ∀ (ps : List Nat) (i cm cs : Nat) (a : Arr), SA.drop i = ps → i ≤ SA.length →
    (∀ p ∈ SA, p < 2 ^ a.width) → (∀ k, k * dens < SA.length → k < a.xs.length) →
    i ≤ cs * dens → cm + (cs * dens - i) = dens → 0 < cm → (∀ k, k < cs → a.get k = some (sym SA (k * dens))) →
    ∃ b, saOrderLoop dens ps cm cs a = some b ∧ ∀ k, k * dens < SA.length → b.get k = some (sym SA (k * dens)) := by
  intro ps
  induction ps with
  | nil =>
    intro i cm cs a h1 h2 _ _ h3 h4 h5 h6
    refine ⟨a, rfl, fun k hk => h6 k ?_⟩
    have : i = SA.length := by
      have := congrArg List.length h1
      rw [List.length_drop, List.length_nil] at this
      omega
    by_contra hc
    have := Nat.mul_le_mul_right dens (show cs ≤ k by omega)
    omega
  | cons p ps ih =>
    intro i cm cs a h1 h2 hw hl h3 h4 h5 h6
    obtain ⟨g1, g2, g3⟩ := drop_eq h1
    rw [saOrderLoop]
    have hs : (cs + 1) * dens = cs * dens + dens := Nat.succ_mul _ _
    by_cases e : dens = cm
    · rw [if_pos e]
      have hi : i = cs * dens := by omega
      have hp : p ∈ SA := by rw [g2]; exact sym_mem g1
      obtain ⟨b, b1, b2, b3, b4⟩ := set_spec (hl cs (by omega)) (hw p hp)
      rw [b1, sbind]
      refine ih (i + 1) 1 (cs + 1) b g3 (by omega) (by rw [b3]; exact hw) (by rw [b2]; exact hl) (by omega) (by omega) (by omega) (fun k hk => ?_)
      rw [b4]
      by_cases ek : k = cs
      · rw [if_pos ek, g2, ek, ← hi]
      · rw [if_neg ek, h6 k (by omega)]
    · rw [if_neg e]
      exact ih (i + 1) (cm + 1) cs a g3 (by omega) hw hl (by omega) (by omega) (by omega) h6

/-- What `csa[i]` needs from a sampling strategy: sampled rows return the right value, and some row is sampled. -/
structure SaSampleOk (S : SaSample) (T SA : List Nat) : Prop where
  def_ : ∀ i, i < T.length → ∃ b, S.isSampled i = some b ∧ (b = true → S.get i = some (sym SA i))
  some_ : ∃ i, i < T.length ∧ S.isSampled i = some true

theorem ceil_lt {n dens k : Nat} (hd : 0 < dens) : k < (n + dens - 1) / dens ↔ k * dens < n := by
  rw [Nat.lt_iff_add_one_le, Nat.le_div_iff_mul_le hd, Nat.succ_mul]
  omega

theorem saOrder_spec {T SA : List Nat} (hT : IsText T) (h : IsSA T SA) {dens : Nat} (hd : 0 < dens) (hn : T.length < 2 ^ 64) :
    ∃ S, saOrder dens SA = some S ∧ SaSampleOk S T SA ∧ ∀ i, S.isSampled i = some (i % dens == 0) := by
  have hl := h.length
  obtain ⟨w, w1, w2, w3⟩ := hiW_spec (n := SA.length) (by omega)
  obtain ⟨b, b1, b2⟩ := saOrderLoop_spec hd (SA := SA) SA 0 dens 0 (Arr.new ((SA.length + dens - 1) / dens) 0 w) rfl (by omega)
    (by
      intro p hp
      have := h.mem.1 hp
      show p < 2 ^ IntVec.clampWidth w
      rw [w3]; omega)
    (by
      intro k hk
      rw [Select.Arr.new_xs, ceil_lt hd]; exact hk) (by omega) (by omega) hd (by intro k hk; omega)
  refine ⟨_, by rw [saOrder, w1, sbind, b1, sbind]; rfl, ⟨fun i hi => ⟨_, rfl, fun hb => ?_⟩, ⟨0, hT.pos, by simp⟩⟩, fun i => rfl⟩
  have hb' : i % dens = 0 := by simpa using hb
  have he : i / dens * dens = i := Nat.div_mul_cancel (Nat.dvd_of_mod_eq_zero hb')
  show b.get (i / dens) = _
  rw [b2 (i / dens) (by omega), he]

/-! ### `_text_order_sampling` -/

theorem count_multiples {dens : Nat} (hd : 0 < dens) (n : Nat) : (List.range n).countP (fun p => p % dens == 0) = (n + dens - 1) / dens := by
  induction n with
  | zero => rw [List.range_zero, List.countP_nil, Nat.zero_add, Nat.div_eq_of_lt (by omega)]
  | succ n ih =>
    rw [List.range_succ, List.countP_append, ih, List.countP_singleton]
    obtain ⟨q, r, hr, hn⟩ : ∃ q r, r < dens ∧ n = q * dens + r := ⟨n / dens, n % dens, Nat.mod_lt _ hd, (Nat.div_add_mod' n dens).symm⟩
    have hm : n % dens = r := by rw [hn, Nat.mul_add_mod_self_right, Nat.mod_eq_of_lt hr]
    by_cases e : r = 0
    · subst e
      have h1 : (n + dens - 1) / dens = q := by
        rw [show n + dens - 1 = dens - 1 + q * dens by omega, Nat.add_mul_div_right _ _ hd, Nat.div_eq_of_lt (by omega)]; omega
      have h2 : (n + 1 + dens - 1) / dens = q + 1 := by
        rw [show n + 1 + dens - 1 = 0 + (q * dens + dens) by omega, ← Nat.succ_mul, Nat.add_mul_div_right _ _ hd]; simp
      rw [h1, h2, hm]; rfl
    · have h1 : (n + dens - 1) / dens = q + 1 := by
        rw [show n + dens - 1 = (r - 1) + (q * dens + dens) by omega, ← Nat.succ_mul, Nat.add_mul_div_right _ _ hd, Nat.div_eq_of_lt (by omega)]; omega
      have h2 : (n + 1 + dens - 1) / dens = q + 1 := by
        rw [show n + 1 + dens - 1 = r + (q * dens + dens) by omega, ← Nat.succ_mul, Nat.add_mul_div_right _ _ hd, Nat.div_eq_of_lt hr]; omega
      rw [h1, h2, hm]
      simp [e]

/-- The rows that the text-order strategy marks. -/
def mkRows (SA : List Nat) (dens : Nat) : List Bool := SA.map (fun p => p % dens == 0)

theorem mk_bit {SA : List Nat} {dens i : Nat} (h : i < SA.length) : Bv.bit (mkRows SA dens) i = (sym SA i % dens == 0) := by
  rw [Bv.bit_of_lt (by rw [mkRows, List.length_map]; exact h), sym_lt h]
  simp [mkRows]

theorem mk_cnt {SA : List Nat} {dens : Nat} : ∀ i, i ≤ SA.length → Bv.cnt true (mkRows SA dens) i = (SA.take i).countP (fun p => p % dens == 0) := by
  intro i
  induction i with
  | zero => intro _; rw [Bv.cnt_zero, List.take_zero, List.countP_nil]
  | succ i ih =>
    intro h
    rw [Bv.cnt_succ, ih (by omega), mk_bit (by omega), List.take_succ_eq_append_getElem (by omega), List.countP_append, List.countP_singleton, sym_lt (by omega)]
    cases hc : (SA[i] % dens == 0) <;> simp

theorem mk_total {T SA : List Nat} (h : IsSA T SA) {dens : Nat} (hd : 0 < dens) : Bv.cnt true (mkRows SA dens) SA.length = (SA.length + dens - 1) / dens := by
  rw [mk_cnt _ (Nat.le_refl _), List.take_length, h.1.countP_eq, count_multiples hd, h.length]

theorem textOrderLoop_spec {dens : Nat} {SA : List Nat} : ∀ (ps : List Nat) (i cnt : Nat) (m : List Bool) (a : Arr), SA.drop i = ps → i ≤ SA.length →
    (∀ p ∈ SA, p / dens < 2 ^ a.width) → a.xs.length = Bv.cnt true (mkRows SA dens) SA.length → cnt = Bv.cnt true (mkRows SA dens) i →
    m = (mkRows SA dens).take i ++ List.replicate (SA.length - i) false →
    (∀ j, j < i → sym SA j % dens = 0 → a.get (Bv.cnt true (mkRows SA dens) j) = some (sym SA j / dens)) →
    ∃ b, textOrderLoop dens ps i cnt m a = some (mkRows SA dens, b) ∧ b.xs.length = Bv.cnt true (mkRows SA dens) SA.length ∧
      ∀ j, j < SA.length → sym SA j % dens = 0 → b.get (Bv.cnt true (mkRows SA dens) j) = some (sym SA j / dens) := by
  intro ps
  induction ps with
  | nil =>
    intro i cnt m a h1 h2 _ hl h3 h4 h5
    have hi : i = SA.length := by
      have := congrArg List.length h1
      rw [List.length_drop, List.length_nil] at this
      omega
    subst hi
    refine ⟨a, ?_, hl, h5⟩
    rw [textOrderLoop, h4, Nat.sub_self, List.replicate_zero, List.append_nil, List.take_of_length_le (by rw [mkRows, List.length_map])]
  | cons p ps ih =>
    intro i cnt m a h1 h2 hw hl h3 h4 h5
    obtain ⟨g1, g2, g3⟩ := drop_eq h1
    have hml : (mkRows SA dens).length = SA.length := by rw [mkRows, List.length_map]
    have hb := mk_bit (dens := dens) g1
    have hcs := Bv.cnt_succ true (mkRows SA dens) i
    have hmono := Bv.cnt_mono true (mkRows SA dens) (show i + 1 ≤ SA.length by omega)
    have hm : ∀ x, x = Bv.bit (mkRows SA dens) i → (mkRows SA dens).take i ++ x :: List.replicate (SA.length - (i + 1)) false =
        (mkRows SA dens).take (i + 1) ++ List.replicate (SA.length - (i + 1)) false := by
      intro x hx
      rw [List.take_succ_eq_append_getElem (by omega), ← Bv.bit_of_lt (by omega), ← hx, List.append_assoc]; rfl
    have hrep : List.replicate (SA.length - i) false = false :: List.replicate (SA.length - (i + 1)) false := by
      rw [show SA.length - i = SA.length - (i + 1) + 1 by omega, List.replicate_succ]
    rw [textOrderLoop]
    rw [hb, ← g2] at hcs
    by_cases e : p % dens = 0
    · rw [if_pos e]
      have hbt : (p % dens == 0) = true := by simpa using e
      rw [hbt] at hcs
      have hcs' : Bv.cnt true (mkRows SA dens) (i + 1) = Bv.cnt true (mkRows SA dens) i + 1 := hcs
      rw [setList_of_lt (by rw [h4, List.length_append, List.length_take, List.length_replicate, hml]; omega), sbind]
      obtain ⟨b, b1, b2, b3, b4⟩ := set_spec (a := a) (i := cnt) (x := p / dens) (by omega) (hw p (by rw [g2]; exact sym_mem g1))
      rw [b1, sbind]
      refine ih (i + 1) (cnt + 1) _ b g3 (by omega) (by rw [b3]; exact hw) (by rw [b2]; exact hl) (by omega) ?_ ?_
      · rw [h4, ← hm true (by rw [hb, ← g2, hbt]), hrep, List.set_append_right _ _ (by rw [List.length_take, hml]; omega), List.length_take, hml,
          show i - min i SA.length = 0 by omega]
        rfl
      · intro j hj hj2
        rw [b4]
        by_cases ej : j = i
        · subst ej; rw [if_pos h3.symm, g2]
        · have h6 := Bv.cnt_mono true (mkRows SA dens) (show j + 1 ≤ i by omega)
          have h7 := Bv.cnt_succ true (mkRows SA dens) j
          rw [mk_bit (by omega), show (sym SA j % dens == 0) = true by simpa using hj2] at h7
          have h8 : Bv.cnt true (mkRows SA dens) (j + 1) = Bv.cnt true (mkRows SA dens) j + 1 := h7
          rw [if_neg (by omega), h5 j (by omega) hj2]
    · rw [if_neg e]
      have hbf : (p % dens == 0) = false := by simpa using e
      rw [hbf] at hcs
      have hcs' : Bv.cnt true (mkRows SA dens) (i + 1) = Bv.cnt true (mkRows SA dens) i := hcs
      refine ih (i + 1) cnt m a g3 (by omega) hw hl (by omega) ?_ ?_
      · rw [h4, ← hm false (by rw [hb, ← g2, hbf]), hrep]
      · intro j hj hj2
        by_cases ej : j = i
        · subst ej; rw [← g2] at hj2; exact absurd hj2 e
        · exact h5 j (by omega) hj2

/-- What the text-order sampling holds. -/
structure TextOrderOk (s : TextOrder) (dens : Nat) (SA : List Nat) : Prop where
  marked : s.marked = mkRows SA dens
  len : s.arr.xs.length = Bv.cnt true (mkRows SA dens) SA.length
  val : ∀ j, j < SA.length → sym SA j % dens = 0 → s.arr.get (Bv.cnt true (mkRows SA dens) j) = some (sym SA j / dens)

theorem textOrder_spec {T SA : List Nat} (h : IsSA T SA) {dens : Nat} (hd : 0 < dens) (hn : T.length < 2 ^ 64) :
    ∃ s, textOrder dens SA = some s ∧ TextOrderOk s dens SA := by
  have hl := h.length
  have hle := Nat.div_le_self SA.length dens
  obtain ⟨w, w1, w2, w3⟩ := hiW_spec (n := SA.length / dens) (by omega)
  obtain ⟨b, b1, b2, b3⟩ := textOrderLoop_spec (dens := dens) (SA := SA) SA 0 0 (List.replicate SA.length false) (Arr.new ((SA.length + dens - 1) / dens) 0 w) rfl (by omega)
    (by
      intro p hp
      have h1 := h.mem.1 hp
      have h2 := Nat.div_le_div_right (c := dens) (show p ≤ SA.length by omega)
      show p / dens < 2 ^ IntVec.clampWidth w
      rw [w3]; omega)
    (by rw [Select.Arr.new_xs, mk_total h hd]) rfl (by rw [List.take_zero]; rfl) (by intro j hj; omega)
  exact ⟨_, by rw [textOrder, w1, sbind, b1, sbind]; rfl, rfl, b2, b3⟩

theorem TextOrderOk.sample {T SA : List Nat} (hT : IsText T) (h : IsSA T SA) {dens : Nat} {s : TextOrder} (hn : T.length < 2 ^ 64) (ho : TextOrderOk s dens SA) :
    SaSampleOk (s.sample dens) T SA ∧ ∀ i, i < T.length → (s.sample dens).isSampled i = some (sym SA i % dens == 0) := by
  have hl := h.length
  have hml : (mkRows SA dens).length = SA.length := by rw [mkRows, List.length_map]
  have hs : ∀ i, i < T.length → (s.sample dens).isSampled i = some (sym SA i % dens == 0) := by
    intro i hi
    show Bv.get s.marked i = _
    rw [ho.marked, Bv.get_of_lt (by omega), mk_bit (by omega)]
  refine ⟨⟨fun i hi => ⟨_, hs i hi, fun hb => ?_⟩, ?_⟩, hs⟩
  · have hb' : sym SA i % dens = 0 := by simpa using hb
    show (Bv.rank true s.marked i >>= fun r => s.arr.get r >>= fun x => pure (x * dens % 2 ^ 64)) = _
    rw [ho.marked, Bv.rank_of_le (by omega), sbind, ho.val i (by omega) hb', sbind, Nat.div_mul_cancel (Nat.dvd_of_mod_eq_zero hb')]
    have := h.sym_get_lt hi
    rw [Nat.mod_eq_of_lt (by omega)]; rfl
  · obtain ⟨i, hi, he⟩ := h.surj (p := 0) hT.pos
    exact ⟨i, hi, by rw [hs i hi, he, Nat.zero_mod]; rfl⟩

/-! ### `csa[i]` -/

/-- Number of LF steps from the suffix `p` to the suffix `q`. -/
theorem dist_step {n p q : Nat} (hp : p < n) (hq : q < n) (hne : p ≠ q) : (prv n p + n - q) % n + 1 = (p + n - q) % n := by
  rcases Nat.eq_zero_or_pos p with h0 | h0
  · subst h0
    rw [prv_zero (by omega), show n - 1 + n - q = (n - 1 - q) + n by omega, Nat.add_mod_right, Nat.mod_eq_of_lt (by omega), Nat.mod_eq_of_lt (by omega)]; omega
  · rw [prv_pos hp h0]
    rcases Nat.lt_or_ge p q with h | h
    · rw [Nat.mod_eq_of_lt (by omega), Nat.mod_eq_of_lt (by omega)]; omega
    · rw [show p - 1 + n - q = (p - 1 - q) + n by omega, Nat.add_mod_right, Nat.mod_eq_of_lt (by omega), show p + n - q = (p - q) + n by omega, Nat.add_mod_right,
        Nat.mod_eq_of_lt (by omega)]; omega

theorem prv_back {n p k : Nat} (hp : p < n) (q : Nat) (h : prv n p = (q + k) % n) : p = (q + (k + 1)) % n := by
  rw [← nxt_prv hp, h, nxt, Nat.mod_add_mod, Nat.add_assoc]

theorem saLoop_spec {W : Wt} {A : Alpha} {T SA : List Nat} {Q : Nat → Prop} (h : CsaOk W A T SA Q) {S : SaSample} (hS : SaSampleOk S T SA) {i0 : Nat} (hi0 : i0 < T.length)
    (hs0 : S.isSampled i0 = some true) : ∀ (fuel i off : Nat), i < T.length → (sym SA i + T.length - sym SA i0) % T.length ≤ fuel →
    ∃ j k, saLoop W A S fuel i off = some (j, off + k) ∧ j < T.length ∧ S.get j = some (sym SA j) ∧ k ≤ (sym SA i + T.length - sym SA i0) % T.length ∧
      sym SA i = (sym SA j + k) % T.length := by
  intro fuel
  induction fuel with
  | zero =>
    intro i off hi hd
    obtain ⟨b, b1, b2⟩ := hS.def_ i hi
    have hp := h.sa.sym_get_lt hi
    have hp0 := h.sa.sym_get_lt hi0
    have hb : b = true := by
      have he : sym SA i = sym SA i0 := by
        by_contra hne
        have := dist_step hp hp0 hne
        omega
      rw [h.sa.inj hi hi0 he, hs0] at b1
      simpa using b1.symm
    rw [saLoop, b1, sbind, if_pos hb]
    exact ⟨i, 0, rfl, hi, b2 hb, by omega, by rw [Nat.add_zero, Nat.mod_eq_of_lt hp]⟩
  | succ fuel ih =>
    intro i off hi hd
    obtain ⟨b, b1, b2⟩ := hS.def_ i hi
    have hp := h.sa.sym_get_lt hi
    have hp0 := h.sa.sym_get_lt hi0
    rw [saLoop, b1, sbind]
    cases b with
    | true =>
      rw [if_pos rfl]
      exact ⟨i, 0, rfl, hi, b2 rfl, by omega, by rw [Nat.add_zero, Nat.mod_eq_of_lt hp]⟩
    | false =>
      rw [if_neg (by simp)]
      obtain ⟨j, j1, _, j3, j4⟩ := h.lf_spec hi
      have hne : sym SA i ≠ sym SA i0 := by
        intro he
        rw [h.sa.inj hi hi0 he, hs0] at b1
        simp at b1
      have hst := dist_step hp hp0 hne
      rw [← j4] at hst
      obtain ⟨r, k, r1, r2, r3, r4, r5⟩ := ih j (off + 1) j3 (by omega)
      refine ⟨r, k + 1, ?_, r2, r3, by omega, prv_back hp _ (by rw [← j4]; exact r5)⟩
      rw [j1, sbind, r1, show off + 1 + k = off + (k + 1) by omega]

/-- `csa[i]`. -/
theorem saGet_spec {W : Wt} {A : Alpha} {T SA : List Nat} {Q : Nat → Prop} (h : CsaOk W A T SA Q) {S : SaSample} (hS : SaSampleOk S T SA) (hn : T.length ≤ 2 ^ 63)
    {fuel i : Nat} (hf : T.length ≤ fuel + 1) (hi : i < T.length) : saGet W A S fuel i = some (sym SA i) := by
  obtain ⟨i0, g1, g2⟩ := hS.some_
  have hm := Nat.mod_lt (sym SA i + T.length - sym SA i0) h.text.pos
  obtain ⟨j, k, r1, r2, r3, r4, r5⟩ := saLoop_spec h hS g1 g2 fuel i 0 hi (by omega)
  rw [Nat.zero_add] at r1
  have hp := h.sa.sym_get_lt r2
  rw [saGet, r1, sbind]
  dsimp only
  rw [r3, sbind, add64_eq (by omega), h.size]
  split
  · rename_i hlt
    rw [r5, Nat.mod_eq_of_lt hlt]; rfl
  · rename_i hlt
    rw [sub64_eq (by omega) (by omega), r5, Nat.mod_eq_sub_mod (by omega), Nat.mod_eq_of_lt (by omega)]; rfl

/-! ### Samples of the inverse suffix array -/

/-- What `isa[i]` needs from its samples: a row and the suffix that starts there. -/
structure IsaSampleOk (I : IsaSample) (T SA : List Nat) : Prop where
  qeq : ∀ i, i < T.length → ∃ v q, I.qeq i = some (v, q) ∧ v < T.length ∧ sym SA v = q ∧ (i ≤ q ∨ q = 0)
  leq : ∀ i, i < T.length → ∃ v q, I.leq i = some (v, q) ∧ v < T.length ∧ sym SA v = q ∧ q ≤ i

theorem isaSampleLoop_spec {dens : Nat} {SA : List Nat} (hnd : ∀ i j, i < SA.length → j < SA.length → sym SA i = sym SA j → i = j) :
    ∀ (ps : List Nat) (i : Nat) (a : Arr), SA.drop i = ps → i ≤ SA.length →
    SA.length ≤ 2 ^ a.width → (∀ p ∈ SA, p / dens < a.xs.length) →
    (∀ j, j < i → sym SA j % dens = 0 → a.get (sym SA j / dens) = some j) →
    ∃ b, isaSampleLoop dens ps i a = some b ∧ b.xs.length = a.xs.length ∧ ∀ j, j < SA.length → sym SA j % dens = 0 → b.get (sym SA j / dens) = some j := by
  intro ps
  induction ps with
  | nil =>
    intro i a h1 h2 _ _ h5
    have hi : i = SA.length := by
      have := congrArg List.length h1
      rw [List.length_drop, List.length_nil] at this
      omega
    subst hi
    exact ⟨a, rfl, rfl, h5⟩
  | cons p ps ih =>
    intro i a h1 h2 hw hl h5
    obtain ⟨g1, g2, g3⟩ := drop_eq h1
    have hp : p ∈ SA := by rw [g2]; exact sym_mem g1
    rw [isaSampleLoop]
    by_cases e : p % dens = 0
    · rw [if_pos e]
      obtain ⟨b, b1, b2, b3, b4⟩ := set_spec (a := a) (x := i) (hl p hp) (by omega)
      rw [b1, sbind]
      obtain ⟨c, c1, c2, c3⟩ := ih (i + 1) b g3 (by omega) (by rw [b3]; exact hw) (by rw [b2]; exact hl) (fun j hj hj2 => by
        rw [b4]
        by_cases ej : j = i
        · subst ej; rw [if_pos (by rw [g2])]
        · rw [if_neg, h5 j (by omega) hj2]
          intro hc
          apply ej
          apply hnd j i (by omega) g1
          rw [← Nat.div_mul_cancel (Nat.dvd_of_mod_eq_zero hj2), hc, Nat.div_mul_cancel (Nat.dvd_of_mod_eq_zero e), g2])
      exact ⟨c, c1, by rw [c2, b2], c3⟩
    · rw [if_neg e]
      refine ih (i + 1) a g3 (by omega) hw hl (fun j hj hj2 => ?_)
      by_cases ej : j = i
      · subst ej; rw [← g2] at hj2; exact absurd hj2 e
      · exact h5 j (by omega) hj2

theorem wrap_pos {n dens i m : Nat} (hd : 0 < dens) (hi : i < n) (hm : ∀ k, k < m ↔ k * dens < n) :
    (i / dens + 1) % m * dens < n ∧ (i ≤ (i / dens + 1) % m * dens ∨ (i / dens + 1) % m * dens = 0) ∧ (i / dens + 1) % m < m ∧ i / dens < m ∧ i / dens * dens ≤ i := by
  have h1 := Nat.div_add_mod' i dens
  have h2 := Nat.mod_lt i hd
  have h3 : i / dens < m := (hm _).2 (by omega)
  have hs : (i / dens + 1) * dens = i / dens * dens + dens := Nat.succ_mul _ _
  have h4 := Nat.mod_lt (i / dens + 1) (Nat.lt_of_le_of_lt (Nat.zero_le _) h3)
  refine ⟨(hm _).1 h4, ?_, h4, h3, by omega⟩
  by_cases e : i / dens + 1 = m
  · right; rw [e, Nat.mod_self, Nat.zero_mul]
  · left; rw [Nat.mod_eq_of_lt (by omega)]; omega

theorem isaSampling_spec {T SA : List Nat} (hT : IsText T) (h : IsSA T SA) {dens : Nat} (hd : 0 < dens) (hn : T.length < 2 ^ 64) :
    ∃ a, isaSampling dens SA = some a ∧ IsaSampleOk (isaSample dens a) T SA := by
  have hl := h.length
  have hpos := hT.pos
  obtain ⟨w, w1, w2, w3⟩ := hiW_spec (n := SA.length) (by omega)
  have hlen : (SA.length - 1) / dens + 1 = (SA.length + dens - 1) / dens := by
    rw [show SA.length + dens - 1 = SA.length - 1 + dens by omega, Nat.add_div_right _ hd]
  have hwid : (Arr.new ((SA.length - 1) / dens + 1) 0 w).width = w := w3
  obtain ⟨b, b1, b2, b3⟩ := isaSampleLoop_spec (dens := dens) (SA := SA) (fun i j hi hj he => h.inj (by omega) (by omega) he) SA 0 (Arr.new ((SA.length - 1) / dens + 1) 0 w) rfl (by omega)
    (by rw [hwid]; omega)
    (by
      intro p hp
      have h1 := h.mem.1 hp
      rw [Select.Arr.new_xs]
      have := Nat.div_le_div_right (c := dens) (show p ≤ SA.length - 1 by omega)
      omega) (by intro j hj; omega)
  rw [Select.Arr.new_xs, hlen] at b2
  have hm : ∀ k, k < b.xs.length ↔ k * dens < T.length := by
    intro k; rw [b2, ceil_lt hd, hl]
  have hget : ∀ k, k * dens < T.length → ∃ v, b.get k = some v ∧ v < T.length ∧ sym SA v = k * dens := by
    intro k hk
    obtain ⟨v, v1, v2⟩ := h.surj hk
    have := b3 v (by omega) (by rw [v2, Nat.mul_mod_left])
    rw [v2, Nat.mul_div_cancel _ hd] at this
    exact ⟨v, this, v1, v2⟩
  refine ⟨b, by rw [isaSampling, if_neg (by omega), w1, sbind, b1], ⟨fun i hi => ?_, fun i hi => ?_⟩⟩
  · obtain ⟨g1, g2, g3, g4, g5⟩ := wrap_pos hd hi hm
    obtain ⟨v, v1, v2, v3⟩ := hget _ g1
    refine ⟨v, _, ?_, v2, v3, g2⟩
    show (b.get ((i / dens + 1) % b.xs.length) >>= fun v => pure (v, (i / dens + 1) % b.xs.length * dens)) = _
    rw [v1, sbind]; rfl
  · obtain ⟨g1, g2, g3, g4, g5⟩ := wrap_pos hd hi hm
    obtain ⟨v, v1, v2, v3⟩ := hget (i / dens) (by omega)
    refine ⟨v, _, ?_, v2, v3, g5⟩
    show (b.get (i / dens) >>= fun v => pure (v, i / dens * dens)) = _
    rw [v1, sbind]; rfl

/-! ### `_text_order_isa_sampling_support` -/

theorem textOrder_perm {T SA : List Nat} (h : IsSA T SA) {dens : Nat} (hd : 0 < dens) {s : TextOrder} (ho : TextOrderOk s dens SA) :
    InvPerm.IsPerm s.arr.xs ∧ (∀ k q, s.arr.xs[k]? = some q → ∃ v, Bv.select true s.marked (k + 1) = some v ∧ v < T.length ∧ sym SA v = q * dens) := by
  have hl := h.length
  have hml : (mkRows SA dens).length = SA.length := by rw [mkRows, List.length_map]
  have hrow : ∀ k, k < s.arr.xs.length → ∃ v, Bv.select true s.marked (k + 1) = some v ∧ v < T.length ∧ sym SA v % dens = 0 ∧
      s.arr.xs[k]? = some (sym SA v / dens) ∧ Bv.cnt true (mkRows SA dens) v = k := by
    intro k hk
    rw [ho.len] at hk
    obtain ⟨v, hv, s2, s3, s4⟩ := Bv.select_exists (tb := true) (B := mkRows SA dens) (i := k + 1) (by omega) (by rw [hml]; omega)
    refine ⟨v, by rw [ho.marked]; exact hv, ?_⟩
    rw [hml] at s2
    rw [mk_bit s2] at s3
    have s3' : sym SA v % dens = 0 := by simpa using s3
    refine ⟨by omega, s3', ?_, by omega⟩
    have := ho.val v s2 s3'
    rw [show Bv.cnt true (mkRows SA dens) v = k by omega] at this
    exact this
  refine ⟨⟨fun x hx => ?_, ?_⟩, fun k q hk => ?_⟩
  · obtain ⟨k, hk, rfl⟩ := List.mem_iff_getElem.1 hx
    obtain ⟨v, v1, v2, v3, v4, v5⟩ := hrow k hk
    rw [List.getElem?_eq_getElem hk, Option.some.injEq] at v4
    rw [v4, ho.len, mk_total h hd, ceil_lt hd, Nat.div_mul_cancel (Nat.dvd_of_mod_eq_zero v3), hl]
    exact h.sym_get_lt v2
  · rw [List.nodup_iff_getElem?_ne_getElem?]
    intro a b hab hb
    obtain ⟨v, v1, v2, v3, v4, v5⟩ := hrow a (by omega)
    obtain ⟨u, u1, u2, u3, u4, u5⟩ := hrow b hb
    rw [v4, u4]
    intro hc
    rw [Option.some.injEq] at hc
    have : sym SA v = sym SA u := by
      rw [← Nat.div_mul_cancel (Nat.dvd_of_mod_eq_zero v3), hc, Nat.div_mul_cancel (Nat.dvd_of_mod_eq_zero u3)]
    have := h.inj v2 u2 this
    subst this
    omega
  · have hk' : k < s.arr.xs.length := by
      by_contra hc
      rw [List.getElem?_eq_none (by omega)] at hk
      simp at hk
    obtain ⟨v, v1, v2, v3, v4, v5⟩ := hrow k hk'
    rw [hk, Option.some.injEq] at v4
    exact ⟨v, v1, v2, by rw [v4, Nat.div_mul_cancel (Nat.dvd_of_mod_eq_zero v3)]⟩

theorem textOrderIsa_spec {T SA : List Nat} (h : IsSA T SA) {dens : Nat} (hd : 0 < dens) {s : TextOrder} (ho : TextOrderOk s dens SA) (hn : T.length < 2 ^ 64)
    {ts fuel : Nat} (hf : 2 * T.length ≤ fuel ∨ 0 < ts ∧ fuel = ts) : ∃ I, textOrderIsa dens ts fuel s = some I ∧ IsaSampleOk I T SA := by
  have hl := h.length
  obtain ⟨hp, hx⟩ := textOrder_perm h hd ho
  have hlen : s.arr.xs.length = (T.length + dens - 1) / dens := by rw [ho.len, mk_total h hd, hl]
  have hm : ∀ k, k < s.arr.xs.length ↔ k * dens < T.length := by intro k; rw [hlen, ceil_lt hd]
  have hle : s.arr.xs.length ≤ T.length := by
    rw [ho.len, ← hl]
    exact Bv.cnt_le _ _ _
  obtain ⟨p, Ls, hpn, hg⟩ := InvPerm.new_good hp (by omega) ts
  have hpv : p.v = s.arr.xs := hg.vEq
  have hget : ∀ k, k * dens < T.length → ∃ j v, InvPerm.get p fuel k = some j ∧ Bv.select true s.marked (j + 1) = some v ∧ v < T.length ∧ sym SA v = k * dens := by
    intro k hk
    obtain ⟨j, j1, j2⟩ := InvPerm.get_eq hp hg ((hm k).2 hk) (fuel := fuel) (by rcases hf with hf | hf <;> omega)
    obtain ⟨v, v1, v2, v3⟩ := hx j k j2
    exact ⟨j, v, j1, v1, v2, v3⟩
  refine ⟨_, by rw [textOrderIsa, hpn, sbind]; rfl, ⟨fun i hi => ?_, fun i hi => ?_⟩⟩
  · obtain ⟨g1, g2, g3, g4, g5⟩ := wrap_pos hd hi hm
    obtain ⟨j, v, v0, v1, v2, v3⟩ := hget _ g1
    refine ⟨v, _, ?_, v2, v3, g2⟩
    dsimp only
    rw [hpv, v0, sbind, v1, sbind]; rfl
  · obtain ⟨g1, g2, g3, g4, g5⟩ := wrap_pos hd hi hm
    obtain ⟨j, v, v0, v1, v2, v3⟩ := hget (i / dens) (by omega)
    refine ⟨v, _, ?_, v2, v3, g5⟩
    dsimp only
    rw [v0, sbind, v1, sbind]; rfl

/-! ### `isa[i]`, `text[i]`, `extract` -/

theorem lfIter_spec {W : Wt} {A : Alpha} {T SA : List Nat} {Q : Nat → Prop} (h : CsaOk W A T SA Q) : ∀ (k x : Nat), x < T.length →
    ∃ y, lfIter W A k x = some y ∧ y < T.length ∧ sym SA x = (sym SA y + k) % T.length := by
  intro k
  induction k with
  | zero => intro x hx; exact ⟨x, rfl, hx, by rw [Nat.add_zero, Nat.mod_eq_of_lt (h.sa.sym_get_lt hx)]⟩
  | succ k ih =>
    intro x hx
    obtain ⟨j, j1, _, j3, j4⟩ := h.lf_spec hx
    obtain ⟨y, y1, y2, y3⟩ := ih j j3
    refine ⟨y, by rw [lfIter, j1, sbind, y1], y2, prv_back (h.sa.sym_get_lt hx) _ (by rw [← j4]; exact y3)⟩

theorem cancel_mod {n a b k : Nat} (ha : a < n) (hb : b < n) (h : (a + k) % n = (b + k) % n) : a = b := by
  have h' : a % n = b % n := by
    have h1 : (a + k + (n - k % n)) % n = (b + k + (n - k % n)) % n := by rw [Nat.add_mod, h, ← Nat.add_mod]
    have h2 : k + (n - k % n) = (k / n + 1) * n := by
      have h3 := Nat.div_add_mod' k n
      have h4 := Nat.mod_lt k (show 0 < n by omega)
      rw [Nat.succ_mul]; omega
    rw [Nat.add_assoc, Nat.add_assoc, h2, Nat.add_mul_mod_self_right, Nat.add_mul_mod_self_right] at h1
    exact h1
  rw [Nat.mod_eq_of_lt ha, Nat.mod_eq_of_lt hb] at h'
  exact h'

/-- `isa[i]` is the row of the suffix `i`. -/
theorem isaGet_spec {W : Wt} {A : Alpha} {T SA : List Nat} {Q : Nat → Prop} (h : CsaOk W A T SA Q) {I : IsaSample} (hI : IsaSampleOk I T SA) {i : Nat} (hi : i < T.length) :
    ∃ r, isaGet W A I i = some r ∧ r < T.length ∧ sym SA r = i := by
  obtain ⟨v, q, g1, g2, g3, g4⟩ := hI.qeq i hi
  have hlen := h.len
  have hq := h.sa.sym_get_lt g2
  have hfin : ∀ k, (i + k) % T.length = q → ∃ r, lfIter W A k v = some r ∧ r < T.length ∧ sym SA r = i := by
    intro k hk
    obtain ⟨y, y1, y2, y3⟩ := lfIter_spec h k v g2
    refine ⟨y, y1, y2, cancel_mod (h.sa.sym_get_lt y2) hi (k := k) ?_⟩
    rw [← y3, g3, hk]
  rw [isaGet, g1, sbind, h.size]
  dsimp only
  apply hfin
  split
  · rename_i hlt
    have : q = 0 := by omega
    subst this
    rw [add64_eq (by omega), Nat.zero_add, sub64_eq (by omega) (by omega), show i + (T.length - i) = T.length by omega, Nat.mod_self]
  · rw [sub64_eq (by omega) (by omega), show i + (q - i) = q by omega, Nat.mod_eq_of_lt (by omega)]

/-- `text[i]`. -/
theorem textGet_spec {W : Wt} {A : Alpha} {T SA : List Nat} {Q : Nat → Prop} (h : CsaOk W A T SA Q) {I : IsaSample} (hI : IsaSampleOk I T SA) {i : Nat} (hi : i < T.length) :
    textGet W A I i = some (sym T i) := by
  obtain ⟨r, r1, r2, r3⟩ := isaGet_spec h hI hi
  rw [textGet, r1, sbind, h.firstRow_spec r2, r3]

theorem extractLoop_spec {W : Wt} {A : Alpha} {T SA : List Nat} {Q : Nat → Prop} (h : CsaOk W A T SA Q) : ∀ (k order e : Nat) (acc : List Nat), order < T.length → k ≤ e →
    sym SA order = e → extractLoop W A k order acc = some ((T.drop (e - k)).take k ++ acc) := by
  intro k
  induction k with
  | zero => intro order e acc _ _ _; rw [extractLoop, List.take_zero]; rfl
  | succ k ih =>
    intro order e acc ho hk he
    have hbl := h.sa.bwt_length
    have hb := h.sa.bwt_sym ho
    have hp := h.sa.sym_get_lt ho
    obtain ⟨j, j1, j2, j3, j4⟩ := h.lf_spec ho
    rw [he, prv_pos (by omega) (by omega)] at hb j4
    obtain ⟨cc, g1, g2, g3, g4, g5, g6⟩ := h.alpha.present (sym_mem (L := bwtOf T SA) (i := order) (by omega))
    have hinv := h.wt.inverse order (by omega)
    have hlf : add64 (smaller (bwtOf T SA) (sym (bwtOf T SA) order)) ((List.take order (bwtOf T SA)).count (sym (bwtOf T SA) order)) = j := by
      rw [lf, hinv, sbind] at j1
      dsimp only at j1
      rw [g1, sbind, g4, sbind] at j1
      simpa using j1
    rw [extractLoop, hinv, sbind]
    dsimp only
    rw [g1, sbind, g4, sbind, hlf, ih j (e - 1) _ j3 (by omega) j4, hb, show e - 1 - k = e - (k + 1) by omega]
    have hx : (List.drop (e - (k + 1)) T).take (k + 1) = (List.drop (e - (k + 1)) T).take k ++ [sym T (e - 1)] := by
      rw [List.take_succ_eq_append_getElem (by rw [List.length_drop]; omega), List.getElem_drop, ← sym_lt, show e - (k + 1) + k = e - 1 by omega]
    rw [hx, List.append_assoc]; rfl

/-- `extract(csa, b, e)`. -/
theorem extract_spec {W : Wt} {A : Alpha} {T SA : List Nat} {Q : Nat → Prop} (h : CsaOk W A T SA Q) {I : IsaSample} (hI : IsaSampleOk I T SA) {b e : Nat} (hbe : b ≤ e)
    (he : e < T.length) : extract W A I b e = some ((T.drop b).take (e - b + 1)) := by
  obtain ⟨r, r1, r2, r3⟩ := isaGet_spec h hI he
  rw [extract, r1, sbind, h.firstRow_spec r2, sbind, extractLoop_spec h (e - b) r e _ r2 (by omega) r3, show e - (e - b) = b by omega, r3]
  rw [List.take_succ_eq_append_getElem (i := e - b) (by rw [List.length_drop]; omega), List.getElem_drop, ← sym_lt, show b + (e - b) = e by omega]

end Sdsl.Csa
