/-
  Helper lemmas: popcount, lowest/highest bit, select in a word.
-/
import Verif.BitsRW

namespace Sdsl.Bits
open Sdsl.Spec

/-- Number with base-256 digits `bs`, least significant first. -/
def ofBytes : List Nat → Nat
  | [] => 0
  | b :: bs => b + 256 * ofBytes bs

/-- Number with `k` base-256 digits all equal to `d`. -/
def rep (d : Nat) : Nat → Nat
  | 0 => 0
  | k + 1 => d + 256 * rep d k

theorem and_bytes {a y m z : Nat} (ha : a < 256) (hm : m < 256) :
    (a + 256 * y) &&& (m + 256 * z) = (a &&& m) + 256 * (y &&& z) := by
  have h1 := @Nat.and_mod_two_pow (a + 256 * y) (m + 256 * z) 8
  have h2 := @Nat.and_div_two_pow (a + 256 * y) (m + 256 * z) 8
  have e1 : (a + 256 * y) % 2 ^ 8 = a := by omega
  have e2 : (m + 256 * z) % 2 ^ 8 = m := by omega
  have e3 : (a + 256 * y) / 2 ^ 8 = y := by omega
  have e4 : (m + 256 * z) / 2 ^ 8 = z := by omega
  rw [e1, e2] at h1
  rw [e3, e4] at h2
  omega

theorem shr_and_bytes {a y m z s : Nat} (hs : s ≤ 8) (ha : a < 256) (hm : m < 2 ^ (8 - s)) :
    ((a + 256 * y) >>> s) &&& (m + 256 * z) = ((a >>> s) &&& m) + 256 * ((y >>> s) &&& z) := by
  have hm8 : m < 2 ^ 8 := Nat.lt_of_lt_of_le hm (Nat.pow_le_pow_right (by omega) (by omega))
  apply Nat.eq_of_testBit_eq
  intro i
  rw [show (256 : Nat) = 2 ^ 8 from rfl] at *
  have hand : (a >>> s &&& m) < 2 ^ 8 := Nat.lt_of_le_of_lt Nat.and_le_right hm8
  rw [Nat.add_comm (a >>> s &&& m), Nat.testBit_two_pow_mul_add _ hand]
  rw [Nat.testBit_and, Nat.testBit_shiftRight, Nat.add_comm a, Nat.add_comm m,
    Nat.testBit_two_pow_mul_add _ ha, Nat.testBit_two_pow_mul_add _ hm8]
  by_cases hi : i < 8
  · simp only [hi, if_true]
    by_cases h2 : s + i < 8
    · simp [h2, Nat.testBit_and, Nat.testBit_shiftRight]
    · have : m.testBit i = false :=
        Nat.testBit_lt_two_pow (Nat.lt_of_lt_of_le hm (Nat.pow_le_pow_right (by omega) (by omega)))
      simp [h2, this]
  · have h2 : ¬ s + i < 8 := by omega
    simp only [hi, h2, if_false]
    rw [Nat.testBit_and, Nat.testBit_shiftRight]
    congr 2; omega

theorem ofBytes_shr_and {bs : List Nat} {m s : Nat} (hs : s ≤ 8) (hm : m < 2 ^ (8 - s))
    (hb : ∀ b ∈ bs, b < 256) :
    (ofBytes bs >>> s) &&& rep m bs.length = ofBytes (bs.map (fun b => (b >>> s) &&& m)) := by
  induction bs with
  | nil => simp [ofBytes, rep]
  | cons b bs ih =>
    simp only [ofBytes, List.length_cons, rep, List.map_cons]
    rw [shr_and_bytes hs (hb b (by simp)) hm, ih (fun c hc => hb c (by simp [hc]))]

theorem ofBytes_and {bs : List Nat} {m : Nat} (hm : m < 256) (hb : ∀ b ∈ bs, b < 256) :
    ofBytes bs &&& rep m bs.length = ofBytes (bs.map (fun b => b &&& m)) := by
  have := ofBytes_shr_and (bs := bs) (m := m) (s := 0) (by omega) (by simpa using hm) hb
  simpa using this

theorem ofBytes_lt {bs : List Nat} (hb : ∀ b ∈ bs, b < 256) : ofBytes bs < 256 ^ bs.length := by
  induction bs with
  | nil => simp [ofBytes]
  | cons b bs ih =>
    have h1 := hb b (by simp)
    have h2 := ih (fun c hc => hb c (by simp [hc]))
    simp only [ofBytes, List.length_cons, Nat.pow_succ]
    omega

/-- Byte `k` of a word. -/
def byte (x : Word) (k : Nat) : Nat := x.toNat / 256 ^ k % 256

def bytes (x : Word) : List Nat :=
  [byte x 0, byte x 1, byte x 2, byte x 3, byte x 4, byte x 5, byte x 6, byte x 7]

theorem byte_lt (x : Word) (k : Nat) : byte x k < 256 := Nat.mod_lt _ (by omega)

theorem bytes_lt (x : Word) : ∀ b ∈ bytes x, b < 256 := by
  simp [bytes, byte_lt]

theorem ofBytes_bytes (x : Word) : ofBytes (bytes x) = x.toNat := by
  have := x.isLt
  simp only [bytes, byte, ofBytes]
  omega

/-- popcount of a byte. -/
def pop8 (b : Nat) : Nat := countTrue (fun i => b.testBit i) 8

theorem pop8_le (b : Nat) : pop8 b ≤ 8 := countTrue_le _ _

theorem swar_byte : ∀ b : Fin 256,
    let y := b.val - ((b.val >>> 1) &&& 0x55)
    let z := (y &&& 0x33) + ((y >>> 2) &&& 0x33)
    ((b.val >>> 1) &&& 0x55) ≤ b.val ∧ y < 256 ∧ z < 256 ∧ (z &&& 0x0f) + ((z >>> 4) &&& 0x0f) = pop8 b.val ∧
      z + (z >>> 4) < 256 ∧ ((z + (z >>> 4)) &&& 0x0f) = pop8 b.val := by
  decide +kernel

/-- The three SWAR steps shared by `cnt` and `_sel`, on words. -/
def swar (x : Word) : Word :=
  let x := x - ((x >>> 1) &&& 0x5555555555555555#64)
  let x := (x &&& 0x3333333333333333#64) + ((x >>> 2) &&& 0x3333333333333333#64)
  (x + (x >>> 4)) &&& 0x0f0f0f0f0f0f0f0f#64

theorem ofBytes_add_map {bs : List Nat} (f g : Nat → Nat) :
    ofBytes (bs.map f) + ofBytes (bs.map g) = ofBytes (bs.map (fun b => f b + g b)) := by
  induction bs with
  | nil => rfl
  | cons b bs ih => simp only [List.map_cons, ofBytes]; omega

theorem ofBytes_sub_map {bs : List Nat} (f g : Nat → Nat) (h : ∀ b ∈ bs, g b ≤ f b) :
    ofBytes (bs.map g) ≤ ofBytes (bs.map f) ∧
    ofBytes (bs.map f) - ofBytes (bs.map g) = ofBytes (bs.map (fun b => f b - g b)) := by
  induction bs with
  | nil => simp [ofBytes]
  | cons b bs ih =>
    have h1 := h b (by simp)
    have h2 := ih (fun c hc => h c (by simp [hc]))
    simp only [List.map_cons, ofBytes]; omega

theorem rep55 : rep 0x55 8 = 0x5555555555555555 := by decide
theorem rep33 : rep 0x33 8 = 0x3333333333333333 := by decide
theorem rep0f : rep 0x0f 8 = 0x0f0f0f0f0f0f0f0f := by decide

theorem ofBytes_mod16 {bs : List Nat} (h : ∀ b ∈ bs, b % 16 ≤ 4) : ofBytes bs % 16 ≤ 4 := by
  cases bs with
  | nil => simp [ofBytes]
  | cons b bs => have := h b (by simp); simp only [ofBytes]; omega

theorem ofBytes_fold_nibbles {bs : List Nat} (h : ∀ b ∈ bs, b % 16 ≤ 4 ∧ b / 16 ≤ 4) :
    (ofBytes bs + (ofBytes bs >>> 4)) &&& rep 0x0f bs.length
      = ofBytes (bs.map (fun b => (b + (b >>> 4)) &&& 0x0f)) := by
  induction bs with
  | nil => rfl
  | cons b bs ih =>
    have ih' := ih (fun c hc => h c (by simp [hc]))
    have hb := h b (by simp)
    have ht := ofBytes_mod16 (fun c (hc : c ∈ bs) => (h c (by simp [hc])).1)
    simp only [ofBytes, List.length_cons, rep, List.map_cons]
    rw [← ih']
    generalize ofBytes bs = t at *
    have key : b + 256 * t + (b + 256 * t) >>> 4 = (b + b / 16 + 16 * (t % 16)) + 256 * (t + t >>> 4) := by
      rw [Nat.shiftRight_eq_div_pow, Nat.shiftRight_eq_div_pow]; omega
    rw [key, and_bytes (by omega) (by omega)]
    congr 1
    have e := fun n => @Nat.and_two_pow_sub_one_eq_mod n 4
    simp only [Nat.reducePow, Nat.add_one_sub_one] at e
    rw [e, e, Nat.shiftRight_eq_div_pow]
    omega

theorem swar_byte2 : ∀ b : Fin 256,
    let y := b.val - ((b.val >>> 1) &&& 0x55)
    let z := (y &&& 0x33) + ((y >>> 2) &&& 0x33)
    z % 16 ≤ 4 ∧ z / 16 ≤ 4 := by
  decide +kernel

theorem swar_toNat (x : Word) : (swar x).toNat = ofBytes ((bytes x).map pop8) := by
  have hb := bytes_lt x
  have hl : (bytes x).length = 8 := rfl
  -- byte functions
  obtain ⟨f1, hf1'⟩ : ∃ f1 : Nat → Nat, f1 = fun b => b - ((b >>> 1) &&& 0x55) := ⟨_, rfl⟩
  obtain ⟨f2, hf2'⟩ : ∃ f2 : Nat → Nat, f2 = fun b => (f1 b &&& 0x33) + ((f1 b >>> 2) &&& 0x33) := ⟨_, rfl⟩
  have hf1 : ∀ b, b < 256 → f1 b < 256 := fun b h => by rw [hf1']; exact (swar_byte ⟨b, h⟩).2.1
  have hf2 : ∀ b, b < 256 → f2 b < 256 := fun b h => by rw [hf2', hf1']; exact (swar_byte ⟨b, h⟩).2.2.1
  have hf2n : ∀ b, b < 256 → f2 b % 16 ≤ 4 ∧ f2 b / 16 ≤ 4 :=
    fun b h => by rw [hf2', hf1']; exact (swar_byte2 ⟨b, h⟩)
  have hf3 : ∀ b, b < 256 → (f2 b + (f2 b >>> 4)) &&& 0x0f = pop8 b :=
    fun b h => by rw [hf2', hf1']; exact (swar_byte ⟨b, h⟩).2.2.2.2.2
  have b1 : ∀ b ∈ (bytes x).map f1, b < 256 := by
    intro c hc; obtain ⟨b, hb', rfl⟩ := List.mem_map.1 hc; exact hf1 b (hb b hb')
  have b2 : ∀ b ∈ (bytes x).map f2, b < 256 := by
    intro c hc; obtain ⟨b, hb', rfl⟩ := List.mem_map.1 hc; exact hf2 b (hb b hb')
  have b2n : ∀ b ∈ (bytes x).map f2, b % 16 ≤ 4 ∧ b / 16 ≤ 4 := by
    intro c hc; obtain ⟨b, hb', rfl⟩ := List.mem_map.1 hc; exact hf2n b (hb b hb')
  have hl1 : ((bytes x).map f1).length = 8 := by rw [List.length_map]; rfl
  have hl2 : ((bytes x).map f2).length = 8 := by rw [List.length_map]; rfl
  have s1 : (x - ((x >>> 1) &&& 0x5555555555555555#64)).toNat = ofBytes ((bytes x).map f1) := by
    have e : ((x >>> 1) &&& 0x5555555555555555#64).toNat = ofBytes ((bytes x).map (fun b => (b >>> 1) &&& 0x55)) := by
      rw [← ofBytes_shr_and (by omega) (by decide) hb, ofBytes_bytes, hl, rep55, BitVec.toNat_and,
        BitVec.toNat_ushiftRight, BitVec.toNat_ofNat]
    have hs := ofBytes_sub_map (bs := bytes x) (fun b => b) (fun b => (b >>> 1) &&& 0x55)
      (fun b h => (swar_byte ⟨b, hb b h⟩).1)
    rw [List.map_id'] at hs
    rw [BitVec.toNat_sub_of_le, e, ← ofBytes_bytes, hs.2, hf1']
    rw [BitVec.le_def, e, ← ofBytes_bytes]; exact hs.1
  generalize hy : x - ((x >>> 1) &&& 0x5555555555555555#64) = y at s1
  have s2 : ((y &&& 0x3333333333333333#64) + ((y >>> 2) &&& 0x3333333333333333#64)).toNat
      = ofBytes ((bytes x).map f2) := by
    have e1 : (y &&& 0x3333333333333333#64).toNat = ofBytes (((bytes x).map f1).map (fun b => b &&& 0x33)) := by
      rw [← ofBytes_and (by omega) b1, hl1, rep33, BitVec.toNat_and, s1, BitVec.toNat_ofNat]
    have e2 : ((y >>> 2) &&& 0x3333333333333333#64).toNat
        = ofBytes (((bytes x).map f1).map (fun b => (b >>> 2) &&& 0x33)) := by
      rw [← ofBytes_shr_and (by omega) (by decide) b1, hl1, rep33, BitVec.toNat_and, BitVec.toNat_ushiftRight, s1,
        BitVec.toNat_ofNat]
    have e3 := ofBytes_add_map (bs := (bytes x).map f1) (fun b => b &&& 0x33) (fun b => (b >>> 2) &&& 0x33)
    rw [BitVec.toNat_add, e1, e2, e3, List.map_map]
    have e4 : (fun b => (b &&& 0x33) + ((b >>> 2) &&& 0x33)) ∘ f1 = f2 := by rw [hf2']; rfl
    rw [e4]
    apply Nat.mod_eq_of_lt
    have := ofBytes_lt b2
    rw [hl2] at this
    exact this
  generalize hz : (y &&& 0x3333333333333333#64) + ((y >>> 2) &&& 0x3333333333333333#64) = z at s2
  have e0 : swar x = (z + (z >>> 4)) &&& 0x0f0f0f0f0f0f0f0f#64 := by
    rw [← hz, ← hy]; rfl
  have hzs : z.toNat + z.toNat >>> 4 < 2 ^ 64 := by
    have : z.toNat / 256 ^ 7 % 256 / 16 ≤ 4 := by
      rw [s2]
      have h7 := hf2n (byte x 7) (byte_lt x 7)
      simp only [bytes, List.map_cons, List.map_nil, ofBytes]
      have := hf2 _ (byte_lt x 0)
      have := hf2 _ (byte_lt x 1)
      have := hf2 _ (byte_lt x 2)
      have := hf2 _ (byte_lt x 3)
      have := hf2 _ (byte_lt x 4)
      have := hf2 _ (byte_lt x 5)
      have := hf2 _ (byte_lt x 6)
      have := hf2 _ (byte_lt x 7)
      omega
    have := z.isLt
    rw [Nat.shiftRight_eq_div_pow]
    omega
  rw [e0, BitVec.toNat_and, BitVec.toNat_add, BitVec.toNat_ushiftRight, BitVec.toNat_ofNat,
    Nat.mod_eq_of_lt hzs, s2]
  have := ofBytes_fold_nibbles b2n
  rw [hl2, rep0f] at this
  rw [show 0x0f0f0f0f0f0f0f0f % 2 ^ 64 = 0x0f0f0f0f0f0f0f0f from rfl, this, List.map_map]
  congr 1
  apply List.map_congr_left
  intro b h
  exact hf3 b (hb b h)

/-- popcount of a word is the sum over its bytes. -/
theorem popcount_eq_bytes (x : Word) :
    popcount x = pop8 (byte x 0) + pop8 (byte x 1) + pop8 (byte x 2) + pop8 (byte x 3) +
      pop8 (byte x 4) + pop8 (byte x 5) + pop8 (byte x 6) + pop8 (byte x 7) := by
  have hbyte : ∀ k, countTrue (fun i => x.getLsbD (8 * k + i)) 8 = pop8 (byte x k) := by
    intro k
    apply countTrue_congr
    intro i hi
    rw [byte, show 256 = 2 ^ 8 from rfl, ← Nat.pow_mul, Nat.testBit_mod_two_pow, Nat.testBit_div_two_pow]
    simp [hi, BitVec.getLsbD, Nat.add_comm]
  unfold popcount
  generalize hf : (fun i => x.getLsbD i) = f
  have hbyte' : ∀ k, countTrue (fun i => f (8 * k + i)) 8 = pop8 (byte x k) := by
    intro k; rw [← hf]; exact hbyte k
  have h : ∀ k, countTrue f (8 * k + 8) = countTrue f (8 * k) + pop8 (byte x k) := by
    intro k; rw [countTrue_add, hbyte']
  have h0 := h 0; have h1 := h 1; have h2 := h 2; have h3 := h 3
  have h4 := h 4; have h5 := h 5; have h6 := h 6; have h7 := h 7
  simp only [Nat.reduceMul, Nat.reduceAdd] at *
  have hz : countTrue f 0 = 0 := rfl
  omega

theorem ofBytes_digit {bs : List Nat} (hb : ∀ b ∈ bs, b < 256) (k : Nat) :
    ofBytes bs / 256 ^ k % 256 = bs.getD k 0 := by
  induction bs generalizing k with
  | nil => simp [ofBytes]
  | cons b bs ih =>
    have h1 := hb b (by simp)
    cases k with
    | zero => simp only [ofBytes]; simp; omega
    | succ k =>
      rw [Nat.pow_succ, Nat.mul_comm (256 ^ k), ← Nat.div_div_eq_div_mul]
      have : ofBytes (b :: bs) / 256 = ofBytes bs := by simp only [ofBytes]; omega
      rw [this, ih (fun c hc => hb c (by simp [hc]))]
      simp

theorem mul_ones_toNat (s : Word) (b0 b1 b2 b3 b4 b5 b6 b7 : Nat)
    (h : s.toNat = ofBytes [b0, b1, b2, b3, b4, b5, b6, b7])
    (hb : b0 ≤ 8 ∧ b1 ≤ 8 ∧ b2 ≤ 8 ∧ b3 ≤ 8 ∧ b4 ≤ 8 ∧ b5 ≤ 8 ∧ b6 ≤ 8 ∧ b7 ≤ 8) :
    (0x0101010101010101#64 * s).toNat = ofBytes [b0, b0 + b1, b0 + b1 + b2, b0 + b1 + b2 + b3,
      b0 + b1 + b2 + b3 + b4, b0 + b1 + b2 + b3 + b4 + b5, b0 + b1 + b2 + b3 + b4 + b5 + b6,
      b0 + b1 + b2 + b3 + b4 + b5 + b6 + b7] := by
  rw [BitVec.toNat_mul, h, BitVec.toNat_ofNat]
  simp only [ofBytes]
  omega

theorem cnt_eq (x : Word) : cnt x = BitVec.ofNat 64 (popcount x) := by
  apply BitVec.eq_of_toNat_eq
  have e : cnt x = (0x0101010101010101#64 * swar x) >>> 56 := rfl
  have hs := swar_toNat x
  simp only [bytes, List.map_cons, List.map_nil] at hs
  have hb := fun k => pop8_le (byte x k)
  rw [e, BitVec.toNat_ushiftRight, mul_ones_toNat _ _ _ _ _ _ _ _ _ hs
    ⟨hb 0, hb 1, hb 2, hb 3, hb 4, hb 5, hb 6, hb 7⟩, popcount_eq_bytes, BitVec.toNat_ofNat,
    Nat.shiftRight_eq_div_pow]
  have := hb 0; have := hb 1; have := hb 2; have := hb 3
  have := hb 4; have := hb 5; have := hb 6; have := hb 7
  generalize pop8 (byte x 0) = b0 at *; generalize pop8 (byte x 1) = b1 at *
  generalize pop8 (byte x 2) = b2 at *; generalize pop8 (byte x 3) = b3 at *
  generalize pop8 (byte x 4) = b4 at *; generalize pop8 (byte x 5) = b5 at *
  generalize pop8 (byte x 6) = b6 at *; generalize pop8 (byte x 7) = b7 at *
  generalize hbs : [b0, b0 + b1, b0 + b1 + b2, b0 + b1 + b2 + b3,
      b0 + b1 + b2 + b3 + b4, b0 + b1 + b2 + b3 + b4 + b5, b0 + b1 + b2 + b3 + b4 + b5 + b6,
      b0 + b1 + b2 + b3 + b4 + b5 + b6 + b7] = bs
  have hlt : ∀ b ∈ bs, b < 256 := by rw [← hbs]; simp; omega
  have h1 := ofBytes_digit hlt 7
  have h2 := ofBytes_lt hlt
  have e1 : bs.getD 7 0 = b0 + b1 + b2 + b3 + b4 + b5 + b6 + b7 := by rw [← hbs]; rfl
  have e2 : bs.length = 8 := by rw [← hbs]; rfl
  rw [e1] at h1
  rw [e2] at h2
  have e3 : (256:Nat) ^ 7 = 2 ^ 56 := by decide
  rw [e3] at h1
  have : ofBytes bs / 2 ^ 56 < 256 := Nat.div_lt_of_lt_mul (by simpa using h2)
  omega

end Sdsl.Bits
