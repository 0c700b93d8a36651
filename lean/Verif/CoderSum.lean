/-
  `decode_prefix_sum` of the Elias coders: the tables and the main loop.
-/
import Verif.CoderVec

namespace Sdsl.Coder

open Bits Spec

/-- The bit string `l` stands at bit `o` of the number `x`. -/
def Sub (x o : Nat) (l : List Bool) : Prop := ∀ k, k < l.length → x.testBit (o + k) = l.getD k false

theorem Sub.append {x o : Nat} {a b : List Bool} : Sub x o (a ++ b) ↔ Sub x o a ∧ Sub x (o + a.length) b := by
  unfold Sub
  simp only [List.length_append]
  constructor
  · intro h2
    refine ⟨fun k hk => ?_, fun k hk => ?_⟩
    · rw [h2 k (by omega)]; simp [List.getD_eq_getElem?_getD, List.getElem?_append, hk]
    · rw [Nat.add_assoc, h2 _ (by omega)]
      simp [List.getD_eq_getElem?_getD, List.getElem?_append, show ¬ a.length + k < a.length by omega]
  · rintro ⟨h2, h4⟩ k hk
    by_cases c : k < a.length
    · rw [h2 k c]; simp [List.getD_eq_getElem?_getD, List.getElem?_append, c]
    · have := h4 (k - a.length) (by omega)
      rw [show o + a.length + (k - a.length) = o + k by omega] at this
      rw [this]; simp [List.getD_eq_getElem?_getD, List.getElem?_append, c]

theorem bitAt_single {x q : Nat} (_ : x < 2 ^ 16) (hq : q < 64) : bitAt [BitVec.ofNat 64 x] q = x.testBit q := by
  have := bitAt_mul_add (m := [BitVec.ofNat 64 x]) (q := 0) hq (by simp)
  rw [show 64 * 0 + q = q by omega] at this
  rw [this]
  show (BitVec.ofNat 64 x).getLsbD q = _
  rw [BitVec.getLsbD_ofNat]; simp [hq]

theorem exists_next {x W o : Nat} (hx : x < 2 ^ W) (h : x >>> o ≠ 0) :
    ∃ l, o + l < W ∧ x.testBit (o + l) = true ∧ ∀ j, j < l → x.testBit (o + j) = false := by
  have hex : ∃ i, (x >>> o).testBit i = true := Nat.exists_testBit_of_ne_zero h
  have : ∀ n : Nat, (∃ i, i < n ∧ x.testBit (o + i) = true) →
      ∃ l, x.testBit (o + l) = true ∧ ∀ j, j < l → x.testBit (o + j) = false := by
    intro n
    induction n with
    | zero => rintro ⟨i, hi, _⟩; omega
    | succ n ih =>
      rintro ⟨i, hi, h1⟩
      by_cases c : ∃ i, i < n ∧ x.testBit (o + i) = true
      · exact ih c
      · refine ⟨i, h1, fun j hj => ?_⟩
        cases h2 : x.testBit (o + j) with
        | false => rfl
        | true => exact absurd ⟨j, by omega, h2⟩ c
  obtain ⟨i, hi⟩ := hex
  rw [Nat.testBit_shiftRight] at hi
  obtain ⟨l, h1, h2⟩ := this (i + 1) ⟨i, by omega, hi⟩
  refine ⟨l, ?_, h1, h2⟩
  false_or_by_contra; rename_i hc
  have : x.testBit (o + l) = false :=
    Nat.testBit_lt_two_pow (Nat.lt_of_lt_of_le hx (Nat.pow_le_pow_right (by omega) (by omega)))
  rw [this] at h1; contradiction

theorem sub_unary {x o l : Nat} (h1 : x.testBit (o + l) = true) (h2 : ∀ j, j < l → x.testBit (o + j) = false) :
    Sub x o (List.replicate l false ++ [true]) := by
  rw [Sub.append]
  refine ⟨fun k hk => ?_, fun k hk => ?_⟩
  · simp at hk
    rw [h2 k hk]; simp [List.getD_eq_getElem?_getD, hk]
  · simp at hk; subst hk; simpa using h1

theorem readUnary_win {x o l : Nat} (hx : x < 2 ^ 16) (hl : o + l < 64) (h1 : x.testBit (o + l) = true)
    (h2 : ∀ j, j < l → x.testBit (o + j) = false) : readUnary [BitVec.ofNat 64 x] 0 o = some l := by
  have := readUnary_eq (m := [BitVec.ofNat 64 x]) (p := 0) (off := o) (r := o + l) (by omega) (by
    refine ⟨by omega, by rw [bitAt_single hx hl, h1], fun j h3 h4 => ?_⟩
    rw [bitAt_single hx (by omega)]
    have := h2 (j - o) (by omega)
    rwa [show o + (j - o) = j by omega] at this)
  rw [this]; refine congrArg some ?_; omega

theorem readInt_win {x o l : Nat} (hx : x < 2 ^ 16) (hl : o + l ≤ 64) (ho : o < 64) :
    readInt [BitVec.ofNat 64 x] 0 o l = some (BitVec.ofNat 64 (bitsVal (fun j => x.testBit (o + j)) l)) := by
  have := readInt_eq (m := [BitVec.ofNat 64 x]) (p := 0) (off := o) (len := l) ho (by omega) (by simp) (by omega)
  rw [this]
  refine congrArg some (congrArg _ ?_)
  unfold field
  apply bitsVal_congr
  intro j hj
  rw [show 64 * 0 + o = o by omega, bitAt_single hx (by omega)]

/-- Value with leading one at `l` and low bits read at `o`. -/
theorem lead_facts {x o l : Nat} (hl : l < 64) :
    let b := bitsVal (fun j => x.testBit (o + j)) l
    (BitVec.ofNat 64 b + 1#64 <<< l).toNat = b + 2 ^ l ∧ b < 2 ^ l ∧ Nat.log2 (b + 2 ^ l) = l ∧
      Sub x o (lowBits (b + 2 ^ l) l) := by
  intro b
  have hb : b < 2 ^ l := bitsVal_lt _ _
  have hp : 2 ^ (l + 1) ≤ 2 ^ 64 := Nat.pow_le_pow_right (by omega) hl
  rw [Nat.pow_succ] at hp
  refine ⟨?_, hb, ?_, fun k hk => ?_⟩
  · have h4 : (1#64 <<< l) = BitVec.ofNat 64 (2 ^ l) := by
      apply BitVec.eq_of_toNat_eq; simp [BitVec.toNat_shiftLeft, Nat.shiftLeft_eq]
    rw [h4, ← BitVec.ofNat_add, BitVec.toNat_ofNat, Nat.mod_eq_of_lt (by omega)]
  · have h0 : b + 2 ^ l ≠ 0 := by have := Nat.two_pow_pos l; omega
    have h1 : l ≤ Nat.log2 (b + 2 ^ l) := (Nat.le_log2 h0).2 (by omega)
    have h2 : Nat.log2 (b + 2 ^ l) < l + 1 := (Nat.log2_lt h0).2 (by rw [Nat.pow_succ]; omega)
    omega
  · rw [length_lowBits] at hk
    rw [getD_lowBits hk, Nat.add_comm b, Nat.testBit_two_pow_add_gt hk, testBit_bitsVal]
    simp [hk]

/-- What a round of the table construction may do: decode a code word inside the window. -/
def WinOK (c : Code) (bits : Word → List Bool) : Prop :=
  ∀ {x W o : Nat}, W ≤ 16 → x < 2 ^ W → x >>> o ≠ 0 → ∃ r, c.win x W o = some r ∧ ∀ v o', r = some (v, o') →
    ∃ w : Word, w ≠ 0#64 ∧ v = w.toNat ∧ o' = o + (bits w).length ∧ o' ≤ W ∧ Sub x o (bits w)

theorem ofNat_facts {y l : Nat} (hy : Nat.log2 y = l) (h0 : y ≠ 0) (hl : l < 64) :
    (BitVec.ofNat 64 y) ≠ 0#64 ∧ (BitVec.ofNat 64 y).toNat = y ∧ lg (BitVec.ofNat 64 y) = l := by
  have h1 : y < 2 ^ 64 := by
    have := Nat.lt_log2_self (n := y)
    rw [hy] at this
    exact Nat.lt_of_lt_of_le this (Nat.pow_le_pow_right (by omega) hl)
  have h2 : (BitVec.ofNat 64 y).toNat = y := by rw [BitVec.toNat_ofNat, Nat.mod_eq_of_lt h1]
  have h3 : BitVec.ofNat 64 y ≠ 0#64 := by
    intro hc; rw [hc] at h2; simp at h2; omega
  exact ⟨h3, h2, by unfold lg; rw [if_neg h3, h2, hy]⟩

theorem lg_one : lg 1#64 = 0 := by decide +kernel

theorem gammaBits_one : gammaBits 1#64 = [true] := by rw [gammaBits_eq, lg_one]; rfl

theorem lg2_one : lg2 1#64 = 0 := (lg2_eq_zero _).2 lg_one

theorem deltaBits_one : deltaBits 1#64 = [true] := by rw [deltaBits_eq, lg2_one, lg_one]; rfl

theorem win_gamma : WinOK gamma gammaBits := by
  intro x W o hW hx hne
  obtain ⟨l, hl, h1, h2⟩ := exists_next hx hne
  have hx16 : x < 2 ^ 16 := Nat.lt_of_lt_of_le hx (Nat.pow_le_pow_right (by omega) hW)
  show ∃ r, gammaWin x W o = some r ∧ _
  unfold gammaWin
  dsimp only
  rw [readUnary_win hx16 (by omega) h1 h2, sbind]
  have hu := sub_unary h1 h2
  by_cases h0 : l = 0
  · rw [if_pos h0]
    refine ⟨_, rfl, fun v o' he => ?_⟩
    obtain ⟨rfl, rfl⟩ := Prod.mk.inj (Option.some.inj he)
    refine ⟨1#64, by decide, rfl, by rw [gammaBits_one]; rfl, by omega, ?_⟩
    rw [gammaBits_one]; subst h0; simpa using hu
  · rw [if_neg h0]
    by_cases hc : o + l + 1 + l ≤ W
    · rw [if_pos hc, readInt_win hx16 (by omega) (by omega), sbind, shl_of_lt (by omega), sbind]
      refine ⟨_, rfl, fun v o' he => ?_⟩
      obtain ⟨rfl, rfl⟩ := Prod.mk.inj (Option.some.inj he)
      obtain ⟨e1, e2, e3, e4⟩ := lead_facts (x := x) (o := o + l + 1) (l := l) (by omega)
      have hp := Nat.two_pow_pos l
      obtain ⟨f1, f2, f3⟩ := ofNat_facts e3 (by omega) (by omega)
      refine ⟨_, f1, by rw [e1, f2], ?_, hc, ?_⟩
      · rw [length_gammaBits, f3]; omega
      · rw [gammaBits_eq, f3, f2, Sub.append]
        refine ⟨hu, ?_⟩
        simp only [List.length_append, List.length_replicate, List.length_singleton]
        rw [← Nat.add_assoc]; exact e4
    · rw [if_neg hc]
      exact ⟨none, rfl, fun v o' he => by cases he⟩

theorem win_delta : WinOK delta deltaBits := by
  intro x W o hW hx hne
  obtain ⟨l, hl, h1, h2⟩ := exists_next hx hne
  have hx16 : x < 2 ^ 16 := Nat.lt_of_lt_of_le hx (Nat.pow_le_pow_right (by omega) hW)
  show ∃ r, deltaWin x W o = some r ∧ _
  unfold deltaWin
  dsimp only
  rw [readUnary_win hx16 (by omega) h1 h2, sbind]
  have hu := sub_unary h1 h2
  by_cases h0 : l = 0
  · rw [if_pos h0]
    refine ⟨_, rfl, fun v o' he => ?_⟩
    obtain ⟨rfl, rfl⟩ := Prod.mk.inj (Option.some.inj he)
    refine ⟨1#64, by decide, rfl, by rw [deltaBits_one]; rfl, by omega, ?_⟩
    rw [deltaBits_one]; subst h0; simpa using hu
  · rw [if_neg h0, readInt_win hx16 (by omega) (by omega), sbind, shl_of_lt (by omega), sbind]
    obtain ⟨e1, e2, e3, e4⟩ := lead_facts (x := x) (o := o + l + 1) (l := l) (by omega)
    rw [e1]
    have hp := Nat.two_pow_pos l
    generalize hlen : bitsVal (fun j => x.testBit (o + l + 1 + j)) l + 2 ^ l = len at *
    have hlen1 : 1 ≤ len := by omega
    by_cases hc : o + l + 1 + l + len - 1 ≤ W
    · rw [if_pos hc, readInt_win hx16 (by omega) (by omega), sbind, shl_of_lt (by omega), sbind]
      refine ⟨_, rfl, fun v o' he => ?_⟩
      obtain ⟨rfl, rfl⟩ := Prod.mk.inj (Option.some.inj he)
      obtain ⟨g1, g2, g3, g4⟩ := lead_facts (x := x) (o := o + l + 1 + l) (l := len - 1) (by omega)
      have hp2 := Nat.two_pow_pos (len - 1)
      obtain ⟨f1, f2, f3⟩ := ofNat_facts g3 (by omega) (by omega)
      have f4 : lg2 (BitVec.ofNat 64 (bitsVal (fun j => x.testBit (o + l + 1 + l + j)) (len - 1) + 2 ^ (len - 1))) = l := by
        unfold lg2; rw [f3, Nat.sub_add_cancel hlen1, e3]
      refine ⟨_, f1, by rw [g1, f2], ?_, hc, ?_⟩
      · rw [length_deltaBits, f3, f4]; omega
      · rw [deltaBits_eq, f3, f4, f2, Nat.sub_add_cancel hlen1, Sub.append, Sub.append]
        simp only [List.length_append, List.length_replicate, List.length_singleton, length_lowBits]
        refine ⟨⟨hu, ?_⟩, ?_⟩
        · rw [← Nat.add_assoc]; exact e4
        · rw [show o + (l + 1 + l) = o + l + 1 + l by omega]; exact g4
    · rw [if_neg hc]
      exact ⟨none, rfl, fun v o' he => by cases he⟩

/-- Sum of the values as a number. -/
def sumN (ws : List Word) : Nat := (ws.map BitVec.toNat).sum

theorem winLoop_eq {c : Code} {bits : Word → List Bool} (hw : WinOK c bits) {x W maxi : Nat} (hW : W ≤ 16) (hx : x < 2 ^ W)
    (f o num val : Nat) (ho : o ≤ W) (hn : num ≤ maxi) :
    ∃ ws : List Word, winLoop c x W maxi f o num val = some (o + (ws.flatMap bits).length, num + ws.length, val + sumN ws) ∧
      o + (ws.flatMap bits).length ≤ W ∧ num + ws.length ≤ maxi ∧ Sub x o (ws.flatMap bits) ∧ 0#64 ∉ ws := by
  induction f generalizing o num val with
  | zero => exact ⟨[], rfl, by simpa using ho, by simpa using hn, fun k hk => absurd hk (by simp), by simp⟩
  | succ f ih =>
    unfold winLoop
    by_cases hc : x >>> o ≠ 0 ∧ num < maxi
    · rw [if_pos hc]
      obtain ⟨r, hr, hr2⟩ := hw hW hx hc.1
      rw [hr, sbind]
      cases r with
      | none => exact ⟨[], rfl, by simpa using ho, by simpa using hn, fun k hk => absurd hk (by simp), by simp⟩
      | some r =>
        obtain ⟨v, o'⟩ := r
        obtain ⟨w, w0, rfl, rfl, h3, h4⟩ := hr2 v o' rfl
        obtain ⟨ws, a1, a2, a3, a4, a5⟩ := ih (o + (bits w).length) (num + 1) (val + w.toNat) h3 (by omega)
        refine ⟨w :: ws, ?_, ?_, ?_, ?_, ?_⟩
        · dsimp only
          rw [a1]
          simp only [List.flatMap_cons, List.length_append, List.length_cons, sumN, List.map_cons, List.sum_cons, Nat.add_assoc]
          rw [Nat.add_comm 1]
        · simp only [List.flatMap_cons, List.length_append]; omega
        · simp only [List.length_cons]; omega
        · rw [List.flatMap_cons, Sub.append]; exact ⟨h4, a4⟩
        · simp only [List.mem_cons, not_or]; exact ⟨fun h => w0 h.symm, a5⟩
    · rw [if_neg hc]
      exact ⟨[], rfl, by simpa using ho, by simpa using hn, fun k hk => absurd hk (by simp), by simp⟩

theorem pack3 {a b k x y z : Nat} (hz : z < 2 ^ b) (hy : y < 2 ^ (a - b)) (hba : b ≤ a) (hx : x < 2 ^ (k - a)) (hak : a ≤ k) :
    let e := ((x <<< a) ||| (y <<< b) ||| z) % 2 ^ k
    e = x * 2 ^ a + y * 2 ^ b + z ∧ e >>> a = x ∧ (e >>> b) % 2 ^ (a - b) = y ∧ e % 2 ^ b = z := by
  intro e
  have pa : 2 ^ a = 2 ^ (a - b) * 2 ^ b := by rw [← Nat.pow_add, Nat.sub_add_cancel hba]
  have pk : 2 ^ k = 2 ^ (k - a) * 2 ^ a := by rw [← Nat.pow_add, Nat.sub_add_cancel hak]
  have hyz : y * 2 ^ b + z < 2 ^ a := by
    have : (y + 1) * 2 ^ b ≤ 2 ^ (a - b) * 2 ^ b := Nat.mul_le_mul_right _ hy
    rw [← pa, Nat.add_mul] at this; omega
  have hxyz : x * 2 ^ a + (y * 2 ^ b + z) < 2 ^ k := by
    have : (x + 1) * 2 ^ a ≤ 2 ^ (k - a) * 2 ^ a := Nat.mul_le_mul_right _ hx
    rw [← pk, Nat.add_mul] at this; omega
  have he : e = x * 2 ^ a + y * 2 ^ b + z := by
    show ((x <<< a) ||| (y <<< b) ||| z) % 2 ^ k = _
    rw [Nat.or_assoc, ← Nat.shiftLeft_add_eq_or_of_lt hz, Nat.shiftLeft_eq y,
      ← Nat.shiftLeft_add_eq_or_of_lt hyz, Nat.shiftLeft_eq, Nat.mod_eq_of_lt hxyz, Nat.add_assoc]
  have hpb := Nat.two_pow_pos b
  have hpa := Nat.two_pow_pos a
  refine ⟨he, ?_, ?_, ?_⟩
  · rw [he, Nat.shiftRight_eq_div_pow, Nat.add_assoc, Nat.mul_comm x, Nat.mul_add_div hpa, Nat.div_eq_of_lt hyz]; rfl
  · rw [he, Nat.shiftRight_eq_div_pow, pa, ← Nat.mul_assoc, ← Nat.add_mul, Nat.mul_comm (x * 2 ^ (a - b) + y),
      Nat.mul_add_div hpb, Nat.div_eq_of_lt hz, Nat.add_zero, Nat.add_comm, Nat.add_mul_mod_self_right, Nat.mod_eq_of_lt hy]
  · rw [he, pa, ← Nat.mul_assoc, ← Nat.add_mul, Nat.add_comm, Nat.add_mul_mod_self_right, Nat.mod_eq_of_lt hz]

/-- Code words are at least as long as the binary representation. -/
def Long (bits : Word → List Bool) : Prop := ∀ w : Word, w ≠ 0#64 → w.toNat < 2 ^ (bits w).length

theorem lg_spec {w : Word} (h : w ≠ 0#64) : w.toNat < 2 ^ (lg w + 1) := by
  unfold lg
  rw [if_neg h]; exact Nat.lt_log2_self

theorem long_gamma : Long gammaBits := fun w h => by
  refine Nat.lt_of_lt_of_le (lg_spec h) (Nat.pow_le_pow_right (by omega) ?_)
  rw [length_gammaBits]; omega

theorem long_delta : Long deltaBits := fun w h => by
  refine Nat.lt_of_lt_of_le (lg_spec h) (Nat.pow_le_pow_right (by omega) ?_)
  rw [length_deltaBits]; omega

theorem sumN_lt {bits : Word → List Bool} (hL : Long bits) {ws : List Word} (h0 : 0#64 ∉ ws) :
    sumN ws < 2 ^ (ws.flatMap bits).length := by
  induction ws with
  | nil => simp [sumN]
  | cons w ws ih =>
    simp only [List.mem_cons, not_or] at h0
    have h1 := ih h0.2
    have h2 := hL w (fun h => h0.1 h.symm)
    simp only [List.flatMap_cons, List.length_append, sumN, List.map_cons, List.sum_cons, Nat.pow_add]
    unfold sumN at h1
    generalize 2 ^ (bits w).length = A at *
    generalize 2 ^ (List.flatMap bits ws).length = B at *
    generalize (List.map BitVec.toNat ws).sum = s at *
    have h3 : w.toNat * 1 ≤ w.toNat * B := Nat.mul_le_mul_left _ (by omega)
    have h4 : (w.toNat + 1) * B ≤ A * B := Nat.mul_le_mul_right _ h2
    rw [Nat.add_mul] at h4; omega

/-- The packed fields of the 8-bit table fit. -/
def Small8 (c : Code) : Prop :=
  c.num8 + 4 ≤ c.off8 ∧ c.off8 + 4 ≤ 16 ∧
    ∀ x, x < 2 ^ 8 → ∀ maxi, maxi < 9 → ∀ r, winLoop c x 8 maxi 9 0 0 0 = some r → r.2.2 < 2 ^ c.num8

/-- Table entries: they describe code words at the start of the window. -/
theorem psum16_eq {c : Code} {bits : Word → List Bool} (hw : WinOK c bits) (hp : ∀ w, 0 < (bits w).length) (hL : Long bits) {x : Nat}
    (hx : x < 2 ^ 16) :
    ∃ e ws, psum16 c x = some e ∧ (e = 0 ↔ ws = []) ∧ e >>> 24 = (ws.flatMap bits).length ∧
      (e >>> 16) &&& 0xFF = ws.length ∧ e &&& 0xFFFF = sumN ws ∧ (ws.flatMap bits).length ≤ 16 ∧ Sub x 0 (ws.flatMap bits) := by
  obtain ⟨ws, a1, a2, a3, a4, a5⟩ := winLoop_eq hw (W := 16) (maxi := 17) (by omega) hx 17 0 0 0 (by omega) (by omega)
  simp only [Nat.zero_add] at a1 a2 a3 a4
  have hs := sumN_lt hL a5
  have hs16 : sumN ws < 2 ^ 16 := Nat.lt_of_lt_of_le hs (Nat.pow_le_pow_right (by omega) a2)
  obtain ⟨e0, e1, e2, e3⟩ := pack3 (a := 24) (b := 16) (k := 32) (x := (ws.flatMap bits).length) (y := ws.length) (z := sumN ws)
    hs16 (by omega) (by omega) (by omega) (by omega)
  refine ⟨_, ws, by unfold psum16; rw [a1, sbind]; rfl, ?_, e1, ?_, ?_, a2, a4⟩
  · rw [e0]
    cases ws with
    | nil => simp [sumN]
    | cons w l =>
      have := hp w
      simp only [List.flatMap_cons, List.length_append, List.length_cons]
      constructor
      · intro h; omega
      · intro h; cases h
  · rw [show (0xFF : Nat) = 2 ^ (24 - 16) - 1 from rfl, Nat.and_two_pow_sub_one_eq_mod]; exact e2
  · rw [show (0xFFFF : Nat) = 2 ^ 16 - 1 from rfl, Nat.and_two_pow_sub_one_eq_mod]; exact e3

theorem psum8_eq {c : Code} {bits : Word → List Bool} (hw : WinOK c bits) (hp : ∀ w, 0 < (bits w).length) (h8 : Small8 c) {x : Nat}
    (hx : x < 2 ^ 8) {maxi : Nat} (hm : maxi ≤ 8) :
    ∃ e ws, psum8 c x maxi = some e ∧ (e = 0 ↔ ws = []) ∧ e >>> c.off8 = (ws.flatMap bits).length ∧
      (e >>> c.num8) &&& 0xF = ws.length ∧ e &&& (2 ^ c.num8 - 1) = sumN ws ∧ (ws.flatMap bits).length ≤ 8 ∧
      ws.length ≤ maxi ∧ Sub x 0 (ws.flatMap bits) := by
  obtain ⟨ws, a1, a2, a3, a4, a5⟩ := winLoop_eq hw (W := 8) (maxi := maxi) (by omega) hx 9 0 0 0 (by omega) (by omega)
  obtain ⟨b1, b2, b3⟩ := h8
  have hs := b3 x hx maxi (by omega) _ a1
  simp only [Nat.zero_add] at a1 a2 a3 a4 hs
  have p4 : 2 ^ 4 ≤ 2 ^ (c.off8 - c.num8) := Nat.pow_le_pow_right (by omega) (by omega)
  have p4' : 2 ^ 4 ≤ 2 ^ (16 - c.off8) := Nat.pow_le_pow_right (by omega) (by omega)
  obtain ⟨e0, e1, e2, e3⟩ := pack3 (a := c.off8) (b := c.num8) (k := 16) (x := (ws.flatMap bits).length) (y := ws.length)
    (z := sumN ws) hs (by omega) (by omega) (by omega) (by omega)
  refine ⟨_, ws, by unfold psum8; rw [a1, sbind]; rfl, ?_, e1, ?_, ?_, a2, a3, a4⟩
  · rw [e0]
    cases ws with
    | nil => simp [sumN]
    | cons w l =>
      have := hp w
      have := Nat.two_pow_pos c.off8
      constructor
      · intro h
        have h1 : ((w :: l).flatMap bits).length * 2 ^ c.off8 = 0 := by omega
        rcases Nat.mul_eq_zero.1 h1 with h2 | h2
        · simp only [List.flatMap_cons, List.length_append] at h2; omega
        · omega
      · intro h; cases h
  · rw [show (0xF : Nat) = 2 ^ 4 - 1 from rfl, Nat.and_two_pow_sub_one_eq_mod]
    have h1 : _ % 2 ^ 4 = ws.length % 2 ^ 4 := congrArg (· % 2 ^ 4) e2
    rw [Nat.mod_mod_of_dvd _ (Nat.pow_dvd_pow 2 (by omega)), Nat.mod_eq_of_lt (a := ws.length) (by omega)] at h1
    exact h1
  · rw [Nat.and_two_pow_sub_one_eq_mod]; exact e3

theorem small8_gamma : Small8 gamma := by
  refine ⟨by decide, by decide, ?_⟩
  intro x hx maxi hm r hr
  obtain ⟨ws, a1, a2, a3, a4, a5⟩ := winLoop_eq win_gamma (W := 8) (maxi := maxi) (by omega) hx 9 0 0 0 (by omega) (by omega)
  rw [a1] at hr
  obtain rfl := Option.some.inj hr
  refine Nat.lt_of_lt_of_le (m := 2 ^ (ws.flatMap gammaBits).length) ?_ (Nat.pow_le_pow_right (by omega) (by
    show _ ≤ 8; omega))
  show 0 + sumN ws < _
  rw [Nat.zero_add]; exact sumN_lt long_gamma a5

theorem delta8_tab : ∀ x : Fin 256, ∀ maxi : Fin 9, ∀ r ∈ winLoop delta x.val 8 maxi.val 9 0 0 0, r.2.2 < 16 := by
  decide +kernel

theorem small8_delta : Small8 delta := by
  refine ⟨by decide, by decide, ?_⟩
  intro x hx maxi hm r hr
  exact delta8_tab ⟨x, hx⟩ ⟨maxi, hm⟩ r (by rw [hr]; rfl)

/-- Everything `decode_prefix_sum` relies on. -/
structure GoodSum (c : Code) (bits : Word → List Bool) : Prop extends Good c bits where
  win : WinOK c bits
  long : Long bits
  small : Small8 c
  one : bits 1#64 = [true]
  decS : ∀ {sh : Option Word} {m : Mem} {pos : Nat} {w : Word}, (sh ≠ none ∨ w ≠ 0#64) → At m pos (bits w) →
    pos + (bits w).length < 64 * m.length →
    c.decS sh m (pos / 64) (pos % 64) = some (w, (pos + (bits w).length) / 64, (pos + (bits w).length) % 64)

theorem goodSum_gamma : GoodSum gamma gammaBits :=
  { good_gamma with win := win_gamma, long := long_gamma, small := small8_gamma, one := gammaBits_one, decS := gamma_decS }

theorem goodSum_delta : GoodSum delta deltaBits :=
  { good_delta with win := win_delta, long := long_delta, small := small8_delta, one := deltaBits_one, decS := delta_decS }

/-- Code words are prefix free: two sequences standing at the same position agree. -/
theorem codes_prefix {c : Code} {bits : Word → List Bool} (g : Good c bits) {m : Mem} (ws ys : List Word) {pos : Nat}
    (h1 : At m pos (ws.flatMap bits)) (h2 : At m pos (ys.flatMap bits)) (hl : ws.length ≤ ys.length) :
    ∃ zs, ys = ws ++ zs := by
  induction ws generalizing ys pos with
  | nil => exact ⟨ys, rfl⟩
  | cons w ws ih =>
    cases ys with
    | nil => simp at hl
    | cons y ys =>
      rw [List.flatMap_cons, At.append] at h1 h2
      have a := g.dec1 (sh := some 0#64) (Or.inl (by simp)) h1.1
      have b := g.dec1 (sh := some 0#64) (Or.inl (by simp)) h2.1
      rw [a] at b
      have : w = y := congrArg Prod.fst (Option.some.inj b)
      subst this
      obtain ⟨zs, hz⟩ := ih ys h1.2 h2.2 (by simpa using hl)
      exact ⟨zs, by rw [hz]; rfl⟩

theorem advance_eq {pos k : Nat} (hk : k ≤ 64) : advance (pos / 64) (pos % 64) k = ((pos + k) / 64, (pos + k) % 64) := by
  unfold advance
  have : (pos % 64 + k) &&& 0x3F = (pos % 64 + k) % 64 := by
    rw [show (0x3F : Nat) = 2 ^ 6 - 1 from rfl, Nat.and_two_pow_sub_one_eq_mod]
  rw [this]
  split
  · refine Prod.ext ?_ ?_ <;> simp only <;> omega
  · refine Prod.ext ?_ ?_ <;> simp only <;> omega

/-- State of the decoding: the codes of `ys` are still to be read, at `pos`. -/
structure Inv (bits : Word → List Bool) (m : Mem) (n : Nat) (tot : Word) (s : Ps) (ys : List Word) (pos : Nat) : Prop where
  hp : s.p = pos / 64
  ho : s.off = pos % 64
  hi : s.i + ys.length = n
  hat : At m pos (ys.flatMap bits)
  slack : pos + (ys.flatMap bits).length + 15 ≤ 64 * m.length
  hv : s.value + sumW ys = tot

theorem sumW_append (a b : List Word) : sumW (a ++ b) = sumW a + sumW b := by
  induction a with
  | nil => simp [sumW]
  | cons x a ih => rw [List.cons_append, sumW_cons, sumW_cons, ih, BitVec.add_assoc]

theorem ofNat_sumN (ws : List Word) : BitVec.ofNat 64 (sumN ws) = sumW ws := by
  induction ws with
  | nil => rfl
  | cons w l ih =>
    rw [sumW_cons, ← ih]
    simp [sumN, BitVec.ofNat_add]

theorem sub_at {m : Mem} {pos W : Nat} {l : List Bool} (h : Sub (field m pos W) 0 l) (hl : l.length ≤ W)
    (hm : pos + l.length ≤ 64 * m.length) : At m pos l := by
  refine ⟨hm, fun k hk => ?_⟩
  have := h k hk
  rw [Nat.zero_add, testBit_field] at this
  rw [← this]; simp; omega

theorem length_le_bits {c : Code} {bits : Word → List Bool} (g : Good c bits) (ys : List Word) :
    ys.length ≤ (ys.flatMap bits).length := by
  induction ys with
  | nil => simp
  | cons w l ih => have := g.pos w; simp only [List.flatMap_cons, List.length_append, List.length_cons]; omega

/-- Reading `ws` from a state. -/
theorem Inv.step {c : Code} {bits : Word → List Bool} (g : Good c bits) {m : Mem} {n : Nat} {tot : Word} {s : Ps} {ys : List Word}
    {pos : Nat} (h : Inv bits m n tot s ys pos) {ws : List Word} (hw : At m pos (ws.flatMap bits)) (hl : ws.length ≤ ys.length)
    (h64 : (ws.flatMap bits).length ≤ 64) :
    ∃ zs, ys = ws ++ zs ∧ Inv bits m n tot ⟨(advance s.p s.off (ws.flatMap bits).length).1, (advance s.p s.off (ws.flatMap bits).length).2,
      s.i + ws.length, s.value + BitVec.ofNat 64 (sumN ws)⟩ zs (pos + (ws.flatMap bits).length) := by
  obtain ⟨zs, rfl⟩ := codes_prefix g ws ys hw h.hat hl
  have hh := h.hat
  have hs := h.slack
  have hi := h.hi
  have hv := h.hv
  rw [List.flatMap_append] at hh hs
  rw [At.append] at hh
  rw [List.length_append] at hs hi
  rw [sumW_append] at hv
  refine ⟨zs, rfl, ?_⟩
  rw [h.hp, h.ho, advance_eq h64]
  exact ⟨rfl, rfl, by show s.i + ws.length + zs.length = n; omega, hh.2, by omega, by
    show s.value + BitVec.ofNat 64 (sumN ws) + sumW zs = tot
    rw [ofNat_sumN, BitVec.add_assoc, hv]⟩

/-- Where the decoding got from `s`. -/
def Reached (bits : Word → List Bool) (m : Mem) (n : Nat) (tot : Word) (s : Ps) (ys : List Word) (s' : Ps) : Prop :=
  s.i ≤ s'.i ∧ ∃ ys' pos', Inv bits m n tot s' ys' pos' ∧ ∀ w ∈ ys', w ∈ ys

theorem psTail_eq {c : Code} {bits : Word → List Bool} (g : GoodSum c bits) {m : Mem} {n : Nat} {tot : Word} {s : Ps} {ys : List Word}
    {pos : Nat} (h : Inv bits m n tot s ys pos) : ∃ s', psTail c m n s = some s' ∧ Reached bits m n tot s ys s' := by
  unfold psTail
  have hsl := h.slack
  have hi := h.hi
  by_cases hc : n - s.i ≤ 8
  · rw [if_pos hc, h.hp, h.ho, ri (by omega) (by omega) (by omega), sbind]
    have hf : (BitVec.ofNat 64 (field m pos 8)).toNat = field m pos 8 := by
      rw [BitVec.toNat_ofNat, Nat.mod_eq_of_lt]
      exact Nat.lt_of_lt_of_le (field_lt m pos 8) (by decide)
    rw [hf]
    obtain ⟨e, ws, a1, a2, a3, a4, a5, a6, a7, a8⟩ := psum8_eq g.win g.pos g.small (field_lt m pos 8) hc
    rw [a1, sbind]
    by_cases he : e > 0
    · rw [if_pos he, a3, a4, a5]
      have hws : ws.length ≤ ys.length := by omega
      have hm8 : pos + (ws.flatMap bits).length ≤ 64 * m.length := by omega
      obtain ⟨zs, rfl, hz⟩ := h.step g.toGood (sub_at a8 a6 hm8) hws (by omega)
      rw [h.hp, h.ho] at hz
      exact ⟨_, rfl, by show s.i ≤ s.i + ws.length; omega, zs, _, hz, fun w hw => by simp [hw]⟩
    · rw [if_neg he]
      exact ⟨s, rfl, Nat.le_refl _, ys, pos, h, fun w hw => hw⟩
  · rw [if_neg hc]
    exact ⟨s, rfl, Nat.le_refl _, ys, pos, h, fun w hw => hw⟩

theorem psInner_eq {c : Code} {bits : Word → List Bool} (g : GoodSum c bits) {m : Mem} {n : Nat} {tot : Word} (f : Nat) {s : Ps}
    {ys : List Word} {pos : Nat} (h : Inv bits m n tot s ys pos) :
    ∃ s', psInner c m n f s = some s' ∧ Reached bits m n tot s ys s' := by
  induction f generalizing s ys pos with
  | zero => exact ⟨s, rfl, Nat.le_refl _, ys, pos, h, fun w hw => hw⟩
  | succ f ih =>
    unfold psInner
    have hsl := h.slack
    have hi := h.hi
    have hle := length_le_bits g.toGood ys
    by_cases hc : s.i < n
    · rw [if_pos hc, h.hp, h.ho, ri (by omega) (by omega) (by omega), sbind]
      have hf : (BitVec.ofNat 64 (field m pos 16)).toNat = field m pos 16 := by
        rw [BitVec.toNat_ofNat, Nat.mod_eq_of_lt]
        exact Nat.lt_of_lt_of_le (field_lt m pos 16) (by decide)
      rw [hf]
      obtain ⟨e, ws, a1, a2, a3, a4, a5, a6, a7⟩ := psum16_eq g.win g.pos g.long (field_lt m pos 16)
      rw [a1, sbind]
      by_cases he : e = 0
      · rw [if_pos he]
        exact ⟨s, rfl, Nat.le_refl _, ys, pos, h, fun w hw => hw⟩
      · rw [if_neg he, a4]
        by_cases ht : s.i + ws.length > n
        · rw [if_pos ht]; exact psTail_eq g h
        · rw [if_neg ht, a3, a5]
          have hm : pos + (ws.flatMap bits).length ≤ 64 * m.length := by omega
          obtain ⟨zs, rfl, hz⟩ := h.step g.toGood (sub_at a7 a6 hm) (by omega) (by omega)
          rw [h.hp, h.ho] at hz
          obtain ⟨s', b1, b2, ys', pos', b3, b4⟩ := ih hz
          refine ⟨s', b1, ?_, ys', pos', b3, fun w hw => by simp [b4 w hw]⟩
          have : s.i + ws.length ≤ s'.i := b2
          omega
    · rw [if_neg hc]
      exact ⟨s, rfl, Nat.le_refl _, ys, pos, h, fun w hw => hw⟩

theorem psRest_eq {c : Code} {bits : Word → List Bool} (g : GoodSum c bits) {sh : Option Word} {m : Mem} {n : Nat} {tot : Word} {s : Ps}
    {ys : List Word} {pos : Nat} (h : Inv bits m n tot s ys pos) (hs : sh ≠ none ∨ 0#64 ∉ ys) (hin : s.i < n) :
    ∃ s', psRest c sh m n s = some s' ∧ Reached bits m n tot s ys s' ∧ s.i < s'.i := by
  unfold psRest
  obtain ⟨s1, a1, a2, ys1, pos1, a3, a4⟩ := psInner_eq g (n - s.i) h
  rw [a1, sbind]
  by_cases hc : s1.i < n
  · rw [if_pos hc]
    have hi := a3.hi
    cases ys1 with
    | nil => simp at hi; omega
    | cons w l =>
      have hat := a3.hat
      have hsl := a3.slack
      have hv := a3.hv
      rw [List.flatMap_cons] at hat hsl
      rw [At.append] at hat
      rw [List.length_append] at hsl
      rw [List.length_cons] at hi
      rw [sumW_cons] at hv
      have hw : sh ≠ none ∨ w ≠ 0#64 := hs.imp_right (fun h1 h2 => h1 (by rw [← h2]; exact a4 w (by simp)))
      rw [a3.hp, a3.ho, g.decS hw hat.1 (by omega), sbind]
      refine ⟨_, rfl, ⟨by show s.i ≤ s1.i + 1; omega, l, pos1 + (bits w).length, ⟨rfl, rfl, ?_, hat.2, by omega, ?_⟩,
        fun x hx => a4 x (by simp [hx])⟩, by show s.i < s1.i + 1; omega⟩
      · show s1.i + 1 + l.length = n; omega
      · show s1.value + w + sumW l = tot; rw [BitVec.add_assoc, hv]
  · rw [if_neg hc]
    exact ⟨s1, rfl, ⟨a2, ys1, pos1, a3, a4⟩, by omega⟩

theorem flatMap_ones {bits : Word → List Bool} (h1 : bits 1#64 = [true]) (k : Nat) :
    (List.replicate k 1#64).flatMap bits = List.replicate k true := by
  induction k with
  | zero => rfl
  | succ k ih => rw [List.replicate_succ, List.flatMap_cons, ih, h1, List.replicate_succ]; rfl

theorem sumN_ones {k : Nat} : sumN (List.replicate k 1#64) = k := by
  simp [sumN]

theorem at_ones {m : Mem} {pos k : Nat} (hm : pos + k ≤ 64 * m.length) (h : ∀ j, j < k → bitAt m (pos + j) = true) :
    At m pos (List.replicate k true) := by
  refine ⟨by simpa using hm, fun j hj => ?_⟩
  have hj' : j < k := by simpa using hj
  rw [h j hj']; simp [List.getD_eq_getElem?_getD, hj']

theorem lo_run {m : Mem} {pos maxd : Nat} (hm : maxd < 64) :
    ∃ r, lo (~~~(BitVec.ofNat 64 (field m pos maxd))) = some r ∧ r ≤ maxd ∧ ∀ j, j < r → bitAt m (pos + j) = true := by
  have hb : ∀ j, j < 64 → (~~~(BitVec.ofNat 64 (field m pos maxd))).getLsbD j = !(decide (j < maxd) && bitAt m (pos + j)) := by
    intro j hj
    rw [BitVec.getLsbD_not, BitVec.getLsbD_ofNat, testBit_field]; simp [hj]
  have hne : ~~~(BitVec.ofNat 64 (field m pos maxd)) ≠ 0#64 := by
    intro hc
    have := hb maxd hm
    rw [hc] at this; simp at this
  obtain ⟨r, h1, h2⟩ := lo_isLo hne
  refine ⟨r, h1, ?_, fun j hj => ?_⟩
  · false_or_by_contra; rename_i hc
    have := h2.2.2 maxd (by omega)
    rw [hb maxd hm] at this; simp at this
  · have h3 := h2.2.2 j hj
    have h4 : j < 64 := Nat.lt_trans hj h2.1
    rw [hb j h4] at h3
    simp at h3; exact h3.2

theorem psRound_eq {c : Code} {bits : Word → List Bool} (g : GoodSum c bits) {sh : Option Word} {m : Mem} {n : Nat} {tot : Word} {s : Ps}
    {ys : List Word} {pos : Nat} (h : Inv bits m n tot s ys pos) (hs : sh ≠ none ∨ 0#64 ∉ ys) (hin : s.i < n) :
    ∃ s', psRound c sh m n s = some s' ∧ Reached bits m n tot s ys s' ∧ s.i < s'.i := by
  unfold psRound
  have hsl := h.slack
  have hi := h.hi
  have hle := length_le_bits g.toGood ys
  rw [h.hp, h.ho, ld_of_lt (by omega), sbind, shr_of_lt (by omega), sbind]
  split
  · dsimp only
    generalize hmx : (if n - s.i > 63 then 63 else n - s.i) = maxd
    have hm1 : maxd ≤ 63 ∧ 1 ≤ maxd ∧ maxd ≤ n - s.i := by rw [← hmx]; split <;> omega
    rw [ri (by omega) (by omega) (by omega), sbind]
    obtain ⟨r, r1, r2, r3⟩ := lo_run (m := m) (pos := pos) (maxd := maxd) (by omega)
    rw [r1, sbind]
    have hat : At m pos ((List.replicate r 1#64).flatMap bits) := by
      rw [flatMap_ones g.one]; exact at_ones (by omega) r3
    obtain ⟨zs, hz1, hz⟩ := h.step g.toGood hat (by simp; omega) (by rw [flatMap_ones g.one]; simp; omega)
    rw [flatMap_ones g.one, List.length_replicate, List.length_replicate, sumN_ones, h.hp, h.ho] at hz
    have hmem : ∀ w ∈ zs, w ∈ ys := fun w hw => by rw [hz1]; simp [hw]
    split
    · rename_i he
      exact ⟨_, rfl, ⟨by show s.i ≤ s.i + r; omega, zs, _, hz, hmem⟩, by show s.i < s.i + r; omega⟩
    · rename_i he
      obtain ⟨s', b1, ⟨b2, ys', pos', b3, b4⟩, b5⟩ := psRest_eq g hz (hs.imp_right (fun h1 h2 => h1 (hmem _ h2)))
        (by show s.i + r < n; omega)
      have b5' : s.i + r < s'.i := b5
      exact ⟨s', b1, ⟨by omega, ys', pos', b3, fun w hw => hmem w (b4 w hw)⟩, by omega⟩
  · have := psRest_eq g h hs hin
    exact this

theorem psOuter_eq {c : Code} {bits : Word → List Bool} (g : GoodSum c bits) {sh : Option Word} {m : Mem} {n : Nat} {tot : Word} (f : Nat)
    {s : Ps} {ys : List Word} {pos : Nat} (h : Inv bits m n tot s ys pos) (hs : sh ≠ none ∨ 0#64 ∉ ys) (hf : n ≤ s.i + f) :
    psOuter c sh m n f s = some tot := by
  have done : ∀ {s : Ps} {ys : List Word} {pos : Nat}, Inv bits m n tot s ys pos → n ≤ s.i → s.value = tot := by
    intro s ys pos h hn
    have hi := h.hi
    have hv := h.hv
    cases ys with
    | nil => simpa [sumW] using hv
    | cons w l => simp at hi; omega
  induction f generalizing s ys pos with
  | zero => unfold psOuter; rw [done h (by omega)]
  | succ f ih =>
    unfold psOuter
    by_cases hc : s.i < n
    · rw [if_pos hc]
      obtain ⟨s', a1, ⟨a2, ys', pos', a3, a4⟩, a5⟩ := psRound_eq g h hs hc
      rw [a1, sbind]
      exact ih a3 (hs.imp_right (fun h1 h2 => h1 (a4 _ h2))) (by omega)
    · rw [if_neg hc, done h (by omega)]

theorem ones_sum {c : Code} {bits : Word → List Bool} (g : GoodSum c bits) {m : Mem} {ys : List Word} {pos k : Nat}
    (h : At m pos (ys.flatMap bits)) (hk : k ≤ ys.length) (h1 : ∀ j, j < k → bitAt m (pos + j) = true) :
    ∃ zs, ys = List.replicate k 1#64 ++ zs := by
  have hle := length_le_bits g.toGood ys
  have := h.1
  refine codes_prefix g.toGood _ ys ?_ h (by simpa using hk)
  rw [flatMap_ones g.one]; exact at_ones (by omega) h1

theorem sumW_ones (k : Nat) : sumW (List.replicate k 1#64) = BitVec.ofNat 64 k := by
  rw [← ofNat_sumN, sumN_ones]

theorem and_loSet_iff {x : Word} {k : Nat} (hk : k ≤ 64) :
    x &&& BitVec.ofNat 64 (2 ^ k - 1) = BitVec.ofNat 64 (2 ^ k - 1) ↔ ∀ j, j < k → x.getLsbD j = true := by
  constructor
  · intro h j hj
    have := congrArg (BitVec.getLsbD · j) h
    simp only [BitVec.getLsbD_and, getLsbD_ones] at this
    simpa [hj, show j < 64 by omega] using this
  · intro h
    apply BitVec.eq_of_getLsbD_eq
    intro j hj
    rw [BitVec.getLsbD_and, getLsbD_ones]
    by_cases hc : j < k
    · simp [h j hc]
    · simp [hc]

theorem prefixSum_eq {c : Code} {bits : Word → List Bool} (g : GoodSum c bits) {sh : Option Word} {m : Mem} {ys : List Word} {start : Nat}
    (h : At m start (ys.flatMap bits)) (hslack : start + (ys.flatMap bits).length + 15 ≤ 64 * m.length)
    (hs : sh ≠ none ∨ 0#64 ∉ ys) : prefixSum c sh m start ys.length = some (sumW ys) := by
  have hle := length_le_bits g.toGood ys
  have base : psOuter c sh m ys.length ys.length ⟨start / 64, start % 64, 0, 0#64⟩ = some (sumW ys) :=
    psOuter_eq g ys.length (ys := ys) (pos := start) ⟨rfl, rfl, by simp, h, hslack, by simp⟩ hs (by simp)
  unfold prefixSum
  by_cases h0 : ys.length = 0
  · rw [if_pos h0]
    have : ys = [] := List.length_eq_zero_iff.1 h0
    subst this; rfl
  rw [if_neg h0]; dsimp only
  have hp : start / 64 < m.length := by omega
  have hbit : ∀ j, start % 64 + j < 64 → (m[start / 64] >>> (start % 64)).getLsbD j = bitAt m (start + j) := by
    intro j hj
    rw [BitVec.getLsbD_ushiftRight, ← bitAt_mul_add hj hp]
    congr 1; omega
  by_cases h24 : ys.length < 24
  · rw [if_pos h24]
    by_cases h64 : ys.length + start % 64 ≤ 64
    · rw [if_pos h64, ld_of_lt hp, sbind, shr_of_lt (by omega), sbind, loSet_eq (by omega), sbind, sbind]
      split
      · rename_i he
        rw [and_loSet_iff (by omega)] at he
        obtain ⟨zs, hz⟩ := ones_sum g h (Nat.le_refl _) (fun j hj => by rw [← hbit j (by omega)]; exact he j hj)
        have hl := congrArg List.length hz
        simp only [List.length_append, List.length_replicate] at hl
        have : zs = [] := List.length_eq_zero_iff.1 (by omega)
        subst this
        have e : sumW ys = BitVec.ofNat 64 ys.length := by
          conv => lhs; rw [hz]
          rw [List.append_nil, sumW_ones]
        rw [e]; rfl
      · exact base
    · rw [if_neg h64, ld_of_lt hp, sbind, shr_of_lt (by omega), sbind, loSet_eq (by omega), sbind]
      split
      · rename_i he
        have hones : ∀ j, j < 64 - start % 64 → bitAt m (start + j) = true := by
          intro j hj
          rw [← hbit j (by omega), he, getLsbD_ones]; simp; omega
        obtain ⟨zs, hz⟩ := ones_sum g h (k := 64 - start % 64) (by omega) hones
        have hl := congrArg List.length hz
        simp only [List.length_append, List.length_replicate] at hl
        have hn : ys.length - (64 - start % 64) = zs.length := by omega
        have hat := h
        have hsl2 := hslack
        rw [hz, List.flatMap_append] at hat hsl2
        rw [At.append] at hat
        rw [List.length_append] at hsl2
        rw [flatMap_ones g.one, List.length_replicate] at hsl2
        have hat2 := hat.2
        rw [flatMap_ones g.one, List.length_replicate] at hat2
        have hstart : start + (64 - start % 64) = 64 * (start / 64 + 1) := by omega
        have hle2 := length_le_bits g.toGood zs
        have hp1 : start / 64 + 1 < m.length := by omega
        have hsum : sumW ys = BitVec.ofNat 64 (64 - start % 64) + sumW zs := by
          conv => lhs; rw [hz]
          rw [sumW_append, sumW_ones]
        rw [hn, ld_of_lt hp1, sbind, loSet_eq (by omega), sbind, sbind]
        split
        · rename_i he2
          rw [and_loSet_iff (by omega)] at he2
          obtain ⟨us, hu⟩ := ones_sum g hat2 (Nat.le_refl _) (fun j hj => by
            rw [hstart, bitAt_mul_add (by omega) hp1]; exact he2 j hj)
          have hl2 := congrArg List.length hu
          simp only [List.length_append, List.length_replicate] at hl2
          have : us = [] := List.length_eq_zero_iff.1 (by omega)
          subst this
          have e : sumW zs = BitVec.ofNat 64 zs.length := by
            conv => lhs; rw [hu]
            rw [List.append_nil, sumW_ones]
          rw [hsum, e, BitVec.ofNat_add]; rfl
        · refine psOuter_eq g zs.length (ys := zs) (pos := start + (64 - start % 64)) ⟨?_, ?_, by simp, hat2, by omega, ?_⟩
            (hs.imp_right (fun h1 h2 => h1 (by rw [hz]; simp [h2]))) (by simp)
          · show start / 64 + 1 = _; omega
          · show 0 = _; omega
          · exact hsum.symm
      · exact base
  · rw [if_neg h24]; exact base

end Sdsl.Coder
