/-
  Lemmas about the model of `sd_vector`.
-/
import Verif.Sd
import Verif.BitsRW
import Verif.BitsSel
import Verif.UtilScan

namespace Sdsl.Sd

open Sdsl.Spec Sdsl.Bits

/-! ## Cutting a monotone sequence -/

/-- `c` elements of `X 0, ..., X (m-1)` are below the cut. -/
structure Cut (m : Nat) (below : Nat → Prop) (c : Nat) : Prop where
  le : c ≤ m
  lo : ∀ j, j < c → below j
  hi : ∀ j, c ≤ j → j < m → ¬ below j

theorem cut_exists (m : Nat) (below : Nat → Prop) (h : ∀ i j, i < j → j < m → below j → below i) : ∃ c, Cut m below c := by
  induction m with
  | zero => exact ⟨0, Nat.le_refl _, fun j hj => absurd hj (by omega), fun j _ hj => absurd hj (by omega)⟩
  | succ m ih =>
    by_cases hb : below m
    · refine ⟨m + 1, Nat.le_refl _, fun j hj => ?_, fun j h1 h2 => absurd h2 (by omega)⟩
      rcases Nat.lt_or_ge j m with hj' | hj'
      · exact h j m hj' (by omega) hb
      · have : j = m := by omega
        subst this; exact hb
    · obtain ⟨c, h1, h2, h3⟩ := ih (fun i j hij hj => h i j hij (by omega))
      refine ⟨c, by omega, h2, fun j h4 h5 => ?_⟩
      rcases Nat.lt_or_ge j m with hj' | hj'
      · exact h3 j h4 hj'
      · have : j = m := by omega
        subst this; exact hb

/-- Counting the members of a strictly increasing sequence below `q`. -/
theorem count_cut {f : Nat → Bool} {P : Nat → Nat} {m : Nat} (mono : ∀ i j, i < j → j < m → P i < P j)
    (hf : ∀ p, f p = true ↔ ∃ j, j < m ∧ P j = p) (q : Nat) : ∀ c, Cut m (fun j => P j < q) c → countTrue f q = c := by
  induction q with
  | zero =>
    rintro c ⟨_, h1, _⟩
    rcases Nat.eq_zero_or_pos c with e | e
    · rw [e]; rfl
    · exact absurd (h1 0 e) (by omega)
  | succ q ih =>
    rintro c ⟨h0, h1, h2⟩
    show countTrue f q + (f q).toNat = c
    by_cases hq : f q = true
    · obtain ⟨j, hj, e⟩ := (hf q).1 hq
      have hjc : j < c := by
        rcases Nat.lt_or_ge j c with h | h
        · exact h
        · exact absurd (h2 j h hj) (by simp only [e]; omega)
      have hjc' : j + 1 = c := by
        rcases Nat.lt_or_ge (j + 1) c with h | h
        · have := mono j (j + 1) (by omega) (by omega)
          have := h1 (j + 1) h
          omega
        · omega
      rw [ih (c - 1) ⟨by omega, fun k hk => ?_, fun k hk1 hk2 => ?_⟩, hq]
      · simp only [Bool.toNat_true]; omega
      · have := mono k j (by omega) hj
        show P k < q
        omega
      · show ¬ P k < q
        rcases Nat.eq_or_lt_of_le (show j ≤ k by omega) with e2 | e2
        · rw [← e2, e]; omega
        · have := mono j k e2 hk2
          omega
    · have hq' : f q = false := by simpa using hq
      rw [ih c ⟨h0, fun k hk => ?_, fun k hk1 hk2 => ?_⟩, hq']
      · rfl
      · have := h1 k hk
        have hne : P k ≠ q := fun e => hq ((hf q).2 ⟨k, by omega, e⟩)
        show P k < q
        omega
      · have := h2 k hk1 hk2
        show ¬ P k < q
        omega

/-! ## Parameters -/

theorem params_ok {k n m : Nat} (hk : 8 ≤ k) (hn : n < 2 ^ 64) (hm : m ≤ n) :
    ∃ logm wl, params k n m = some (logm, wl) ∧ 1 ≤ wl ∧ wl < 64 ∧ logm < 64 ∧ n / 2 ^ wl < 2 ^ logm ∧ 2 ^ logm ≤ 2 * m + 2 := by
  have e1 : (BitVec.ofNat 64 m).toNat = m := by rw [BitVec.toNat_ofNat, Nat.mod_eq_of_lt (by omega)]
  have e2 : (BitVec.ofNat 64 n).toNat = n := by rw [BitVec.toNat_ofNat, Nat.mod_eq_of_lt hn]
  have hlm : m < 2 ^ (Nat.log2 m + 1) := Nat.lt_log2_self
  have hln : n < 2 ^ (Nat.log2 n + 1) := Nat.lt_log2_self
  have hn64 : Nat.log2 n < 64 := by
    rcases Nat.eq_zero_or_pos n with e | e
    · rw [e]; decide
    · exact (Nat.log2_lt (by omega)).2 hn
  have hmn : Nat.log2 m ≤ Nat.log2 n := by
    rcases Nat.eq_zero_or_pos m with e | e
    · rw [e]; exact Nat.zero_le _
    · have h1 : 2 ^ Nat.log2 m ≤ m := Nat.log2_self_le (by omega)
      exact Nat.le_log2 (by omega) |>.2 (by omega)
  have hpm : 2 ^ Nat.log2 m ≤ m + 1 := by
    rcases Nat.eq_zero_or_pos m with e | e
    · rw [e]; decide
    · have h1 : 2 ^ Nat.log2 m ≤ m := Nat.log2_self_le (by omega)
      omega
  have hk' : 2 ^ 8 ≤ 2 ^ k := Nat.pow_le_pow_right (by omega) hk
  unfold params
  rw [hi_eq, hi_eq, e1, e2, Option.map_some, Option.map_some, sbind, sbind]
  dsimp only
  by_cases h : Nat.log2 m = Nat.log2 n
  · have h' : Nat.log2 m + 1 = Nat.log2 n + 1 := by omega
    rw [if_pos h']
    refine ⟨Nat.log2 m + 1 - 1, 1, ?_, by omega, by omega, by omega, ?_, ?_⟩
    · show some _ = some _
      have : (Nat.log2 n + 1 + 2 ^ k - (Nat.log2 m + 1 - 1)) % 2 ^ k = 1 := by
        rw [show Nat.log2 n + 1 + 2 ^ k - (Nat.log2 m + 1 - 1) = 1 + 2 ^ k by omega, Nat.add_mod_right, Nat.mod_eq_of_lt (by omega)]
      rw [this]
    · rw [Nat.div_lt_iff_lt_mul (by decide), h]
      rw [show Nat.log2 n + 1 - 1 = Nat.log2 n by omega, ← Nat.pow_succ]
      exact hln
    · rw [show Nat.log2 m + 1 - 1 = Nat.log2 m by omega]; omega
  · have h' : ¬ Nat.log2 m + 1 = Nat.log2 n + 1 := by omega
    rw [if_neg h']
    refine ⟨Nat.log2 m + 1, Nat.log2 n - Nat.log2 m, ?_, by omega, by omega, by omega, ?_, ?_⟩
    · show some _ = some _
      have : (Nat.log2 n + 1 + 2 ^ k - (Nat.log2 m + 1)) % 2 ^ k = Nat.log2 n - Nat.log2 m := by
        rw [show Nat.log2 n + 1 + 2 ^ k - (Nat.log2 m + 1) = (Nat.log2 n - Nat.log2 m) + 2 ^ k by omega, Nat.add_mod_right,
          Nat.mod_eq_of_lt (by omega)]
      rw [this]
    · rw [Nat.div_lt_iff_lt_mul (Nat.pow_pos (by decide)), ← Nat.pow_add]
      rw [show Nat.log2 m + 1 + (Nat.log2 n - Nat.log2 m) = Nat.log2 n + 1 by omega]
      exact hln
    · rw [Nat.pow_succ]; omega

/-! ## Construction -/

/-- Element `j`. -/
def X (xs : List Nat) (j : Nat) : Nat := xs.getD j 0

theorem X_eq {xs : List Nat} {j : Nat} (h : j < xs.length) : X xs j = xs[j] := by
  simp [X, h]

theorem X_append_left {pre ys : List Nat} {j : Nat} (h : j < pre.length) : X (pre ++ ys) j = X pre j := by
  simp [X, List.getElem?_append_left h]

theorem X_append_mid {pre ys : List Nat} {x : Nat} : X (pre ++ x :: ys) pre.length = x := by
  simp [X]

theorem X_mem {xs : List Nat} {j : Nat} (h : j < xs.length) : X xs j ∈ xs := by
  rw [X_eq h]; exact List.getElem_mem h

theorem mem_iff_X {xs : List Nat} {p : Nat} : p ∈ xs ↔ ∃ j, j < xs.length ∧ X xs j = p := by
  constructor
  · intro h
    obtain ⟨j, hj, e⟩ := List.mem_iff_getElem.1 h
    exact ⟨j, hj, by rw [X_eq hj, e]⟩
  · rintro ⟨j, hj, rfl⟩; exact X_mem hj

/-- Invariant of the construction after the positions `pre`. -/
structure Inv (m z wl : Nat) (pre : List Nat) (s : St) : Prop where
  len : pre.length ≤ m
  mm : s.mm = pre.length
  last : ∀ j, j < pre.length → X pre j / 2 ^ wl ≤ s.lastHigh
  lastz : s.lastHigh < z
  hp : s.highpos = s.lastHigh + pre.length
  wid : s.low.width = wl
  low : s.low.xs = pre.map (· % 2 ^ wl) ++ List.replicate (m - pre.length) 0
  hlen : s.high.length = m + z
  bits : ∀ p, Bv.bit s.high p = true ↔ ∃ j, j < pre.length ∧ X pre j / 2 ^ wl + j = p
  lasteq : pre.length = 0 → s.lastHigh = 0
  lasteq' : ∀ j, j + 1 = pre.length → s.lastHigh = X pre j / 2 ^ wl

theorem shr64_of_lt {a k : Nat} (h : k < 64) : shr64 a k = some (a / 2 ^ k) := by simp [shr64, h]
theorem shl64_of_lt {a k : Nat} (h : k < 64) (h2 : a * 2 ^ k < 2 ^ 64) : shl64 a k = some (a * 2 ^ k) := by
  simp only [shl64, h, if_true]; rw [Nat.mod_eq_of_lt h2]
theorem sub64_of_le {a b : Nat} (h : b ≤ a) (ha : a < 2 ^ 64) : sub64 a b = a - b := by
  unfold sub64
  rw [show a + 2 ^ 64 - b = (a - b) + 2 ^ 64 by omega, Nat.add_mod_right, Nat.mod_eq_of_lt (by omega)]
theorem add64_of_lt {a b : Nat} (h : a + b < 2 ^ 64) : add64 a b = a + b := Nat.mod_eq_of_lt h

theorem push_ok {m z wl : Nat} {pre : List Nat} {s : St} {x : Nat} (hwl : wl < 64) (hmz : m + z < 2 ^ 64)
    (h : Inv m z wl pre s) (hl : pre.length < m) (hx : ∀ j, j < pre.length → X pre j ≤ x) (hz : x / 2 ^ wl < z) :
    ∃ s', push wl s x = some s' ∧ Inv m z wl (pre ++ [x]) s' := by
  have hlast : s.lastHigh ≤ x / 2 ^ wl := by
    rcases Nat.eq_zero_or_pos pre.length with e | e
    · rw [h.lasteq e]; exact Nat.zero_le _
    · rw [h.lasteq' (pre.length - 1) (by omega)]
      exact Nat.div_le_div_right (hx _ (by omega))
  have hhp : add64 s.highpos (sub64 (x / 2 ^ wl) s.lastHigh) = x / 2 ^ wl + pre.length := by
    have := h.hp
    rw [sub64_of_le hlast (by omega), add64_of_lt (by omega)]; omega
  have hlow : s.mm < s.low.xs.length := by
    rw [h.low, h.mm]; simp; omega
  unfold push
  rw [shr64_of_lt hwl, sbind]
  dsimp only
  rw [hhp, Arr.set_of_lt hlow, sbind, Bv.set_of_lt (by rw [h.hlen]; omega), sbind]
  refine ⟨_, rfl, ?_⟩
  constructor
  · simp; omega
  · show s.mm + 1 = _; rw [h.mm]; simp
  · intro j hj
    show _ ≤ x / 2 ^ wl
    rcases Nat.lt_or_ge j pre.length with h1 | h1
    · rw [X_append_left h1]; exact Nat.le_trans (h.last j h1) hlast
    · have : j = pre.length := by simp at hj; omega
      rw [this, X_append_mid]; exact Nat.le_refl _
  · exact hz
  · show add64 _ 1 = x / 2 ^ wl + _
    rw [add64_of_lt (by omega)]; simp; omega
  · exact h.wid
  · show s.low.xs.set s.mm (x % 2 ^ s.low.width) = _
    rw [h.low, h.mm, h.wid, List.set_append_right _ _ (by simp)]
    rw [List.map_append, List.length_map, Nat.sub_self]
    rw [show m - pre.length = (m - (pre.length + 1)) + 1 by omega, List.replicate_succ]
    simp
  · show (s.high.set _ _).length = _
    rw [List.length_set, h.hlen]
  · intro p
    show Bv.bit (s.high.set _ true) p = true ↔ _
    rw [Bv.bit_set (by rw [h.hlen]; omega)]
    constructor
    · intro hb
      split at hb
      · rename_i e
        exact ⟨pre.length, by simp, by rw [X_append_mid]; exact e.symm⟩
      · obtain ⟨j, hj, e⟩ := (h.bits p).1 hb
        exact ⟨j, by simp; omega, by rw [X_append_left hj]; exact e⟩
    · rintro ⟨j, hj, e⟩
      rcases Nat.lt_or_ge j pre.length with h1 | h1
      · rw [X_append_left h1] at e
        have := (h.bits p).2 ⟨j, h1, e⟩
        split
        · rfl
        · exact this
      · have : j = pre.length := by simp at hj; omega
        rw [this, X_append_mid] at e
        rw [if_pos e.symm]
  · intro e; simp at e
  · intro j hj
    have : j = pre.length := by simp at hj; omega
    show x / 2 ^ wl = _
    rw [this, X_append_mid]

theorem pushAll_ok {m z wl : Nat} (hwl : wl < 64) (hmz : m + z < 2 ^ 64) : ∀ (ys pre : List Nat) (s : St),
    Inv m z wl pre s → (pre ++ ys).length ≤ m → (pre ++ ys).Pairwise (· ≤ ·) → (∀ y, y ∈ ys → y / 2 ^ wl < z) →
    ∃ s', pushAll wl s ys = some s' ∧ Inv m z wl (pre ++ ys) s'
  | [], pre, s, h, _, _, _ => ⟨s, rfl, by rw [List.append_nil]; exact h⟩
  | y :: ys, pre, s, h, hl, hp, hz => by
    have hx : ∀ j, j < pre.length → X pre j ≤ y := by
      intro j hj
      rw [List.pairwise_append] at hp
      exact hp.2.2 _ (X_mem hj) y (by simp)
    obtain ⟨s1, e1, h1⟩ := push_ok hwl hmz h (by simp at hl; omega) hx (hz y (by simp))
    have ea : pre ++ y :: ys = (pre ++ [y]) ++ ys := by simp
    rw [ea] at hl hp ⊢
    obtain ⟨s2, e2, h2⟩ := pushAll_ok hwl hmz ys (pre ++ [y]) s1 h1 hl hp (fun w hw => hz w (by simp [hw]))
    refine ⟨s2, ?_, h2⟩
    simp only [pushAll]
    rw [e1, sbind]; exact e2

theorem start_ok {m logm wl : Nat} (hw1 : 1 ≤ wl) (hwl : wl < 64) (hl : logm < 64) :
    ∃ s, start m logm wl = some s ∧ Inv m (2 ^ logm) wl [] s := by
  unfold start
  rw [shl64_of_lt hl (by rw [Nat.one_mul]; exact Nat.pow_lt_pow_right (by omega) hl), sbind, Nat.one_mul]
  have hc : IntVec.clampWidth wl = wl := by unfold IntVec.clampWidth; rw [if_pos (by omega)]
  refine ⟨_, rfl, ?_⟩
  constructor
  · simp
  · rfl
  · intro j hj; simp at hj
  · exact Nat.pow_pos (by decide)
  · rfl
  · show IntVec.clampWidth wl = wl; exact hc
  · show List.replicate m (0 % 2 ^ _) = _; simp
  · show (List.replicate _ _).length = _; simp
  · intro p
    show Bv.bit (List.replicate _ _) p = true ↔ _
    rw [Bv.bit_replicate]
    constructor
    · intro h; cases h
    · rintro ⟨j, hj, _⟩; simp at hj
  · intro; rfl
  · intro j hj; simp at hj

/-- What the queries need to know about the vector. -/
structure Ok (xs : List Nat) (n : Nat) (b : Sd) : Prop where
  size : b.size = n
  wl : b.wl < 64
  low : b.low.xs = xs.map (· % 2 ^ b.wl)
  z : ∃ z, b.high.length = xs.length + z ∧ n / 2 ^ b.wl < z ∧ xs.length + z < 2 ^ 64
  bits : ∀ p, Bv.bit b.high p = true ↔ ∃ j, j < xs.length ∧ X xs j / 2 ^ b.wl + j = p

theorem Inv.ok {n z wl : Nat} {xs : List Nat} {s : St} (h : Inv xs.length z wl xs s) (hwl : wl < 64) (hz : n / 2 ^ wl < z)
    (hmz : xs.length + z < 2 ^ 64) : Ok xs n ⟨n, wl, s.low, s.high⟩ := by
  refine ⟨rfl, hwl, ?_, ⟨z, h.hlen, hz, hmz⟩, h.bits⟩
  show s.low.xs = _
  rw [h.low]; simp

/-- Strictly increasing positions below `n`: the positions fit. -/
theorem length_le_of_increasing {xs : List Nat} {n : Nat} (hp : xs.Pairwise (· < ·)) (hn : ∀ x, x ∈ xs → x < n) : xs.length ≤ n := by
  have key : ∀ j, j < xs.length → j ≤ X xs j := by
    intro j
    induction j with
    | zero => intro _; exact Nat.zero_le _
    | succ j ih =>
      intro hj
      have h1 := ih (by omega)
      have h2 : X xs j < X xs (j + 1) := by
        rw [X_eq (show j < xs.length by omega), X_eq hj]
        exact List.pairwise_iff_getElem.1 hp j (j + 1) (by omega) hj (by omega)
      omega
  rcases Nat.eq_zero_or_pos xs.length with e | e
  · omega
  · have h1 := key (xs.length - 1) (by omega)
    have h2 := hn _ (X_mem (show xs.length - 1 < xs.length by omega))
    omega

/-- Construction from a sequence of positions. -/
theorem build_ok {k n : Nat} {xs : List Nat} (hk : 8 ≤ k) (hn : n < 2 ^ 64) (hp : xs.Pairwise (· < ·)) (hx : ∀ x, x ∈ xs → x < n)
    (hm : xs.length < 2 ^ 62) :
    ∃ logm wl s0 s, params k n xs.length = some (logm, wl) ∧ start xs.length logm wl = some s0 ∧ pushAll wl s0 xs = some s ∧
      s.mm = xs.length ∧ Ok xs n ⟨n, wl, s.low, s.high⟩ := by
  obtain ⟨logm, wl, e, h1, h2, h3, h4, h5⟩ := params_ok hk hn (length_le_of_increasing hp hx)
  obtain ⟨s0, e0, i0⟩ := start_ok (m := xs.length) h1 h2 h3
  have hmz : xs.length + 2 ^ logm < 2 ^ 64 := by omega
  obtain ⟨s, e1, i1⟩ := pushAll_ok h2 hmz xs [] s0 i0 (by simp) (by simpa using hp.imp (fun h => Nat.le_of_lt h))
    (fun y hy => Nat.lt_of_le_of_lt (Nat.div_le_div_right (Nat.le_of_lt (hx y hy))) h4)
  rw [List.nil_append] at i1
  exact ⟨logm, wl, s0, s, e, e0, e1, i1.mm, i1.ok h2 h4 hmz⟩

/-! ## Queries -/

section
variable {xs : List Nat} {n : Nat} {b : Sd} (h : Ok xs n b) (hp : xs.Pairwise (· < ·)) (hx : ∀ x, x ∈ xs → x < n) (hn : n < 2 ^ 64)

include hp in
theorem X_mono {i j : Nat} (hij : i < j) (hj : j < xs.length) : X xs i < X xs j := by
  rw [X_eq (show i < xs.length by omega), X_eq hj]
  exact List.pairwise_iff_getElem.1 hp i j (by omega) hj hij

include hp in
theorem P_mono (W : Nat) {i j : Nat} (hij : i < j) (hj : j < xs.length) : X xs i / W + i < X xs j / W + j := by
  have := Nat.div_le_div_right (c := W) (Nat.le_of_lt (X_mono hp hij hj))
  omega

include h hp in
theorem sel0_ok {hv : Nat} (hh : hv ≤ n / 2 ^ b.wl) : ∃ c, Cut xs.length (fun j => X xs j / 2 ^ b.wl ≤ hv) c ∧
    Bv.select false b.high (add64 hv 1) = some (hv + c) := by
  obtain ⟨z, z1, z2, z3⟩ := h.z
  obtain ⟨c, hc⟩ := cut_exists xs.length (fun j => X xs j / 2 ^ b.wl ≤ hv) (fun i j hij hj hb =>
    Nat.le_trans (Nat.div_le_div_right (Nat.le_of_lt (X_mono hp hij hj))) hb)
  refine ⟨c, hc, ?_⟩
  have hcl := hc.le
  rw [add64_of_lt (by omega)]
  have hbit : Bv.bit b.high (hv + c) = false := by
    rcases Bool.eq_false_or_eq_true (Bv.bit b.high (hv + c)) with e | e
    · obtain ⟨j, hj, e2⟩ := (h.bits _).1 e
      rcases Nat.lt_or_ge j c with h1 | h1
      · have := hc.lo j h1; omega
      · have := hc.hi j h1 hj; omega
    · exact e
  have hcnt : Bv.cnt true b.high (hv + c) = c := by
    unfold Bv.cnt
    refine count_cut (P := fun j => X xs j / 2 ^ b.wl + j) (m := xs.length) (fun i j hij hj => P_mono hp _ hij hj) ?_ _ c ?_
    · intro p
      rw [← h.bits p]
      cases Bv.bit b.high p <;> simp
    · refine ⟨hc.le, fun j hj => ?_, fun j h1 hj => ?_⟩
      · have := hc.lo j hj; omega
      · have := hc.hi j h1 hj; omega
  have hcf := Bv.cnt_compl b.high (hv + c)
  have := Bv.select_eq (tb := false) (B := b.high) (p := hv + c) (by omega) hbit
  rw [show Bv.cnt false b.high (hv + c) + 1 = hv + 1 by omega] at this
  exact this

/-- State of the downward scans: `c` positions are still to be looked at, all in buckets `≤ hv`. -/
structure State (xs : List Nat) (W hv c : Nat) : Prop where
  le : c ≤ xs.length
  lo : ∀ j, j < c → X xs j / W ≤ hv
  hi : ∀ j, c ≤ j → j < xs.length → hv ≤ X xs j / W

include h in
theorem peek_ok {hv c s : Nat} (hs : State xs (2 ^ b.wl) hv c) (hh : hv ≤ n / 2 ^ b.wl) (e : s + 1 = hv + c) :
    peek b s (sub64 c 1) = some (if 1 ≤ c ∧ X xs (c - 1) / 2 ^ b.wl = hv then some (X xs (c - 1) % 2 ^ b.wl) else none) := by
  obtain ⟨z, z1, z2, z3⟩ := h.z
  have hl := hs.le
  have hb : Bv.bit b.high s = true ↔ 1 ≤ c ∧ X xs (c - 1) / 2 ^ b.wl = hv := by
    rw [h.bits]
    constructor
    · rintro ⟨j, hj, e2⟩
      rcases Nat.lt_or_ge j c with h1 | h1
      · have h2 := hs.lo j h1
        have : j = c - 1 := by omega
        subst this
        exact ⟨by omega, by omega⟩
      · have h2 := hs.hi j h1 hj
        omega
    · rintro ⟨h1, h2⟩
      exact ⟨c - 1, by omega, by omega⟩
  unfold peek
  rw [Bv.get_of_lt (by omega), sbind]
  by_cases hc : 1 ≤ c ∧ X xs (c - 1) / 2 ^ b.wl = hv
  · have hlow : b.low.get (sub64 c 1) = some (X xs (c - 1) % 2 ^ b.wl) := by
      unfold Arr.get
      rw [sub64_of_le hc.1 (by omega), h.low, List.getElem?_map, List.getElem?_eq_getElem (by omega), X_eq (by omega)]
      rfl
    rw [if_pos (hb.2 hc), if_pos hc, hlow]; rfl
  · rw [if_neg (fun h => hc (hb.1 h)), if_neg hc]; rfl

theorem lowPart_ok {i wl : Nat} (hw : wl < 64) (hi : i < 2 ^ 64) : lowPart i wl = some (i % 2 ^ wl) := by
  unfold lowPart
  rw [loSet_eq (by omega), Option.map_some]
  refine congrArg some ?_
  rw [BitVec.toNat_and, BitVec.toNat_ofNat, BitVec.toNat_ofNat, Nat.mod_eq_of_lt hi]
  have : 2 ^ wl ≤ 2 ^ 63 := Nat.pow_le_pow_right (by decide) (by omega)
  rw [Nat.mod_eq_of_lt (a := 2 ^ wl - 1) (by omega), Nat.and_two_pow_sub_one_eq_mod]

end

end Sdsl.Sd
