/-
  Lemmas about the Fibonacci decoder.
-/
import Verif.FibEnc
import Verif.BitsFib

namespace Sdsl.Fib

open Bits Spec Coder

/-- The bits `f 0, ..., f (len-1)` are (the end of) a code word. -/
structure Tail (f : Nat → Bool) (len : Nat) : Prop where
  two : 2 ≤ len
  top : f (len - 2) = true
  last : f (len - 1) = true
  first : ∀ i, i + 2 < len → ¬ (f i = true ∧ f (i + 1) = true)

theorem Tail.pending {f : Nat → Bool} {len : Nat} (h : Tail f len) (i : Nat) (hi : i < len) :
    Spec.pending f false i = if i = 0 then false else f (i - 1) := by
  induction i with
  | zero => rfl
  | succ i ih =>
    rw [if_neg (by omega), Nat.add_sub_cancel]
    show (f i && !Spec.pending f false i) = f i
    rw [ih (by omega)]
    by_cases c : i = 0
    · subst c; simp
    · rw [if_neg c]
      have := h.first (i - 1) (by omega)
      rw [show i - 1 + 1 = i by omega] at this
      cases h1 : f i <;> cases h2 : f (i - 1) <;> simp_all

theorem Tail.cut {f : Nat → Bool} {len : Nat} (h : Tail f len) (i : Nat) (hi : i < len) :
    Spec.cut f false i = decide (i = len - 1) := by
  unfold Spec.cut
  rw [h.pending i hi]
  have := h.two
  by_cases c : i = len - 1
  · rw [if_neg (by omega), c, h.last, show len - 1 - 1 = len - 2 by omega, h.top]; simp
  · by_cases c0 : i = 0
    · rw [if_pos c0]; simp [c]
    · rw [if_neg c0]
      have := h.first (i - 1) (by omega)
      rw [show i - 1 + 1 = i by omega] at this
      cases h1 : f i <;> cases h2 : f (i - 1) <;> simp_all

theorem Tail.pending_end {f : Nat → Bool} {len : Nat} (h : Tail f len) : Spec.pending f false len = false := by
  have := h.two
  obtain ⟨k, rfl⟩ : ∃ k, len = k + 1 := ⟨len - 1, by omega⟩
  show (f k && !Spec.pending f false k) = false
  rw [h.pending k (by omega), if_neg (by omega)]
  have := h.top
  rw [show k + 1 - 2 = k - 1 by omega] at this
  rw [this]; simp

theorem pending_add (f : Nat → Bool) (c : Bool) (a i : Nat) :
    pending f c (a + i) = pending (fun j => f (a + j)) (pending f c a) i := by
  induction i with
  | zero => rfl
  | succ i ih => show (f (a + i) && !pending f c (a + i)) = _; rw [ih]; rfl

theorem cut_add (f : Nat → Bool) (c : Bool) (a i : Nat) :
    cut f c (a + i) = cut (fun j => f (a + j)) (pending f c a) i := by unfold cut; rw [pending_add]

theorem pending_congr {f g : Nat → Bool} {c : Bool} {n : Nat} (h : ∀ i, i < n → f i = g i) : pending f c n = pending g c n := by
  induction n with
  | zero => rfl
  | succ n ih => unfold pending; rw [ih (fun i hi => h i (by omega)), h n (by omega)]

theorem cut_congr {f g : Nat → Bool} {c : Bool} {n : Nat} (h : ∀ i, i ≤ n → f i = g i) : cut f c n = cut g c n := by
  unfold cut; rw [pending_congr (fun i hi => h i (by omega)), h n (by omega)]

theorem Tail.count {f : Nat → Bool} {len : Nat} (h : Tail f len) (k : Nat) (hk : k ≤ len) :
    countTrue (Spec.cut f false) k = if k = len then 1 else 0 := by
  have key : ∀ j, j < len → countTrue (Spec.cut f false) j = 0 := by
    intro j hj
    rw [← countTrue_false j]
    apply countTrue_congr
    intro i hi
    rw [h.cut i (by omega)]; simp; omega
  by_cases c : k = len
  · rw [if_pos c, c]
    have := h.two
    obtain ⟨j, rfl⟩ : ∃ j, len = j + 1 := ⟨len - 1, by omega⟩
    unfold countTrue
    rw [key j (by omega), h.cut j (by omega)]; simp
  · rw [if_neg c]; exact key k (by omega)

/-- Code words of the given lengths follow each other. -/
def Codes (f : Nat → Bool) : List Nat → Prop
  | [] => True
  | len :: ls => Tail f len ∧ Codes (fun i => f (len + i)) ls

theorem Codes.count {f : Nat → Bool} {ls : List Nat} (h : Codes f ls) :
    countTrue (cut f false) ls.sum = ls.length ∧ pending f false ls.sum = false ∧
      ∀ k, k < ls.sum → countTrue (cut f false) k < ls.length := by
  induction ls generalizing f with
  | nil => exact ⟨rfl, rfl, fun k hk => by simp at hk⟩
  | cons len ls ih =>
    obtain ⟨h1, h2⟩ := h
    obtain ⟨i1, i2, i3⟩ := ih h2
    have e : ∀ k, countTrue (cut f false) (len + k) = 1 + countTrue (cut (fun i => f (len + i)) false) k := by
      intro k
      rw [countTrue_add, h1.count len (Nat.le_refl _), if_pos rfl]
      congr 1
      apply countTrue_congr
      intro i _
      rw [cut_add, h1.pending_end]
    rw [List.sum_cons, List.length_cons]
    refine ⟨by rw [e, i1]; omega, by rw [pending_add, h1.pending_end, i2], fun k hk => ?_⟩
    by_cases c : k < len
    · rw [h1.count k (by omega), if_neg (by omega)]; omega
    · have := i3 (k - len) (by omega)
      rw [show k = len + (k - len) by omega, e]; omega

/-! ### Words -/

theorem cnt11_win {w : Word} {f : Nat → Bool} {b : Nat} (hb : b ≤ 64) (h : ∀ i, i < 64 → w.getLsbD i = (decide (i < b) && f i)) :
    (cnt11 w).toNat = countTrue (cut f false) b := by
  rw [cnt11_eq, BitVec.toNat_ofNat]
  have e : countTrue (cut (fun i => w.getLsbD i) false) 64 = countTrue (cut f false) b := by
    obtain ⟨r, hr⟩ : ∃ r, 64 = b + r := ⟨64 - b, by omega⟩
    rw [congrArg (countTrue _) hr, countTrue_add]
    have e1 : countTrue (cut (fun i => w.getLsbD i) false) b = countTrue (cut f false) b := by
      apply countTrue_congr
      intro i hi
      apply cut_congr
      intro j hj
      rw [h j (by omega)]; simp; omega
    have e2 : countTrue (fun i => cut (fun i => w.getLsbD i) false (b + i)) r = 0 := by
      rw [← countTrue_false r]
      apply countTrue_congr
      intro i hi
      unfold cut
      dsimp only
      rw [h _ (by omega)]; simp; intro h'; omega
    rw [e1, e2]; rfl
  rw [e]
  have := countTrue_le (cut f false) b
  omega

theorem fibShift_zero {x : Word} (h : ∀ i, i < 64 → cut (fun i => x.getLsbD i) false i = false) : fibShift x = some 0 := by
  have : countTrue (cut (fun i => x.getLsbD i) false) 64 = 0 := by
    rw [← countTrue_false 64]; exact countTrue_congr h
  unfold fibShift
  rw [cnt11_eq, this]; rfl

theorem fibShift_some {x : Word} {p : Nat} (hp : p < 64) (h : cut (fun i => x.getLsbD i) false p = true)
    (hlt : ∀ i, i < p → cut (fun i => x.getLsbD i) false i = false) : fibShift x = some (p + 1) := by
  have hc : countTrue (cut (fun i => x.getLsbD i) false) p = 0 := by
    rw [← countTrue_false p]; exact countTrue_congr hlt
  have hpos := countTrue_lt_of_true (f := cut (fun i => x.getLsbD i) false) hp h
  have hle := countTrue_le (cut (fun i => x.getLsbD i) false) 64
  unfold fibShift
  rw [cnt11_eq, if_pos]
  · unfold sel11
    have he : ∀ i, i < 64 → (ends11 x 0#64).getLsbD i = cut (fun i => x.getLsbD i) false i := by
      intro i hi
      exact ends11_getLsbD x false hi
    have hpc : popcount (ends11 x 0#64) = countTrue (cut (fun i => x.getLsbD i) false) 64 := countTrue_congr he
    obtain ⟨q, h1, h2⟩ := sel_eq (x := ends11 x 0#64) (i := 1) (by omega) (by omega)
    rw [h1, sbind]
    have h3 : IsSelect (fun i => (ends11 x 0#64).getLsbD i) 64 1 p := by
      refine ⟨hp, ?_, ?_⟩
      · show (ends11 x 0#64).getLsbD p = true
        rw [he p hp, h]
      · rw [countTrue_congr (g := cut (fun i => x.getLsbD i) false) (fun i hi => he i (by omega)), hc]
    rw [h2.unique h3]; rfl
  · intro h0
    have := congrArg BitVec.toNat h0
    simp at this; omega

theorem mask13 (w : Word) {i : Nat} (hi : i < 64) : (w &&& 0x1FFF#64).getLsbD i = (decide (i < 13) && w.getLsbD i) := by
  rw [BitVec.getLsbD_and]
  have : ∀ i : Fin 64, (0x1FFF#64).getLsbD i.val = decide (i.val < 13) := by decide
  rw [this ⟨i, hi⟩, Bool.and_comm]

theorem mask12 (w : Word) (i : Nat) : (w &&& 0xFFF#64).getLsbD i = (decide (i < 12) && w.getLsbD i) := by
  rw [BitVec.getLsbD_and]
  by_cases hi : i < 64
  · have : ∀ i : Fin 64, (0xFFF#64).getLsbD i.val = decide (i.val < 12) := by decide
    rw [this ⟨i, hi⟩, Bool.and_comm]
  · rw [BitVec.getLsbD_of_ge _ _ (by omega)]; simp

theorem shift_short {f : Nat → Bool} {len : Nat} {w : Word} (h : Tail f len) (h13 : len ≤ 13)
    (hw : ∀ i, i < len → w.getLsbD i = f i) : fibShift (w &&& 0x1FFF#64) = some len := by
  have h2 := h.two
  have e : ∀ i, i < len → cut (fun i => (w &&& 0x1FFF#64).getLsbD i) false i = cut f false i := by
    intro i hi
    apply cut_congr
    intro j hj
    rw [mask13 w (by omega), hw j (by omega)]; simp; omega
  have := fibShift_some (x := w &&& 0x1FFF#64) (p := len - 1) (by omega)
    (by rw [e _ (by omega), h.cut _ (by omega)]; simp)
    (fun i hi => by rw [e _ (by omega), h.cut _ (by omega)]; simp; omega)
  rw [this]; congr 1; omega

theorem shift_long {f : Nat → Bool} {len : Nat} {w : Word} (h : Tail f len) (h13 : 13 < len)
    (hw : ∀ i, i < 13 → w.getLsbD i = f i) : fibShift (w &&& 0x1FFF#64) = some 0 := by
  apply fibShift_zero
  intro i hi
  by_cases c : i < 13
  · rw [cut_congr (g := f) (fun j hj => by rw [mask13 w (by omega), hw j (by omega)]; simp; omega), h.cut i (by omega)]
    simp; omega
  · unfold cut
    dsimp only
    rw [mask13 w hi]; simp [c]

/-! ### The table of partial sums -/

/-- The value of digits `f 0, ..., f (n-1)` at positions `a, a+1, ...`. -/
def fsum (a : Nat) (f : Nat → Bool) : Nat → Nat
  | 0 => 0
  | n + 1 => fsum a f n + if f n then fibN (a + n) else 0

theorem fsum_zero (f : Nat → Bool) (n : Nat) : fsum 0 f n = fibSum f n := by
  induction n with
  | zero => rfl
  | succ n ih => unfold fsum fibSum; rw [ih, Nat.zero_add]

theorem fsum_add (a : Nat) (f : Nat → Bool) (k n : Nat) :
    fsum a f (k + n) = fsum a f k + fsum (a + k) (fun i => f (k + i)) n := by
  induction n with
  | zero => rfl
  | succ n ih =>
    show fsum a f (k + n) + (if f (k + n) then fibN (a + (k + n)) else 0) = _
    rw [ih]
    show _ = fsum a f k + (fsum (a + k) (fun i => f (k + i)) n + (if f (k + n) then fibN (a + k + n) else 0))
    rw [Nat.add_assoc a k n]; omega

theorem tblLoop_eq {f : Nat → Bool} {len p : Nat} {x : Word} (h : Tail f len) (hp : 12 * p + len ≤ 93)
    (hx : ∀ i, x.getLsbD i = (decide (i < 12) && x.getLsbD i)) (hf : ∀ i, i < len → i < 12 → x.getLsbD i = f i)
    (k j : Nat) (hjk : j + k = 12) (hj : j < min (len - 1) 12 ∨ (j = 12 ∧ 13 ≤ len)) :
    tblLoop p x k (BitVec.ofNat 64 (fsum (12 * p) f j)) = BitVec.ofNat 64 (fsum (12 * p) f (min (len - 1) 12)) := by
  induction k generalizing j with
  | zero =>
    have : min (len - 1) 12 = j := by omega
    rw [this]; rfl
  | succ k ih =>
    have hj : j < min (len - 1) 12 := by omega
    have h2 := h.two
    unfold tblLoop
    obtain rfl : j = 11 - k := by omega
    generalize hj' : 11 - k = j at *
    rw [if_pos (by omega), hf j (by omega) (by omega)]
    have hs : fsum (12 * p) f (j + 1) = fsum (12 * p) f j + if f j then fibN (12 * p + j) else 0 := rfl
    have hadd : ∀ c : Bool, c = true → f j = c → BitVec.ofNat 64 (fsum (12 * p) f j) + ltFib.getD (12 * p + j) 0#64 =
        BitVec.ofNat 64 (fsum (12 * p) f (j + 1)) := by
      rintro c rfl hc
      rw [ltFib_getD (by omega), ← BitVec.ofNat_add, hs, if_pos hc]
    have next : ¬ j + 1 = min (len - 1) 12 ∨ j = 11 → tblLoop p x k (BitVec.ofNat 64 (fsum (12 * p) f (j + 1))) =
        BitVec.ofNat 64 (fsum (12 * p) f (min (len - 1) 12)) := fun hn => ih (j + 1) (by omega) (by omega)
    by_cases c : f j = true
    · rw [if_pos c, hadd true rfl c]
      by_cases c2 : x.getLsbD (j + 1) = true
      · rw [if_pos c2]
        have h12 : j + 1 < 12 := by rw [hx] at c2; simp at c2; exact c2.1
        rw [hf (j + 1) (by omega) h12] at c2
        have : ¬ j + 2 < len := fun h' => h.first j h' ⟨c, c2⟩
        rw [show j + 1 = min (len - 1) 12 by omega]
      · rw [if_neg c2]
        apply next
        by_cases h12 : j + 1 < 12
        · left
          intro h'
          apply c2
          rw [hf (j + 1) (by omega) h12, show j + 1 = len - 1 by omega, h.last]
        · right; omega
    · rw [if_neg c]
      have : fsum (12 * p) f j = fsum (12 * p) f (j + 1) := by rw [hs, if_neg c]; rfl
      rw [this]
      apply next
      by_cases h12 : j + 1 < 12
      · left
        intro h'
        apply c
        rw [show j = len - 2 by omega, h.top]
      · right; omega

theorem fib95_eq {f : Nat → Bool} {len p : Nat} {w : Word} (h : Tail f len) (hp : 12 * p + len ≤ 93)
    (hw : ∀ i, i < len → i < 12 → w.getLsbD i = f i) :
    fib95 p (w &&& 0xFFF#64) = some (BitVec.ofNat 64 (fsum (12 * p) f (min (len - 1) 12))) := by
  have h2 := h.two
  unfold fib95
  rw [if_pos (by omega)]
  have := tblLoop_eq (x := w &&& 0xFFF#64) h hp (fun i => by simp only [mask12]; simp)
    (fun i h1 h12 => by rw [mask12, hw i h1 h12]; simp [h12]) 12 0 rfl (by omega)
  rw [← this]; rfl

/-! ### The buffer -/

/-- `b` holds the bits from position `q` on. -/
structure BInv (m : Mem) (q : Nat) (b : Buf) : Prop where
  le : b.buffered ≤ 64
  read : b.read < 64
  pos : q + b.buffered = 64 * b.p + b.read
  bits : ∀ i, i < 64 → b.w.getLsbD i = (decide (i < b.buffered) && bitAt m (q + i))

theorem loadStep_eq {m : Mem} {q : Nat} {b : Buf} (h : BInv m q b) (hb : b.buffered < 64)
    (hm : q + b.buffered < 64 * m.length) : ∃ b', loadStep m b = some b' ∧ BInv m q b' ∧ b.buffered < b'.buffered := by
  have hp := h.pos
  have hr := h.read
  unfold loadStep
  have hlt : b.p < m.length := by omega
  rw [ld_of_lt hlt, sbind, shr_of_lt hr, sbind, shl_of_lt hb, sbind]
  have key : ∀ i, i < 64 → b.read + (i - b.buffered) < 64 →
      (b.w ||| (m[b.p] >>> b.read) <<< b.buffered).getLsbD i = bitAt m (q + i) := by
    intro i hi hi2
    rw [BitVec.getLsbD_or, h.bits i hi, BitVec.getLsbD_shiftLeft, BitVec.getLsbD_ushiftRight]
    by_cases c : i < b.buffered
    · simp [c]
    · rw [show q + i = 64 * b.p + (b.read + (i - b.buffered)) by omega, bitAt_mul_add (by omega) hlt]
      simp [c, hi]
  by_cases c : b.read ≥ b.buffered
  · rw [if_pos c]
    refine ⟨_, rfl, ⟨by show b.buffered + (64 - b.read) ≤ 64; omega, by show (0:Nat) < 64; decide,
      by show q + (b.buffered + (64 - b.read)) = 64 * (b.p + 1) + 0; omega, fun i hi => ?_⟩,
      by show b.buffered < b.buffered + (64 - b.read); omega⟩
    show (b.w ||| (m[b.p] >>> b.read) <<< b.buffered).getLsbD i = (decide (i < b.buffered + (64 - b.read)) && bitAt m (q + i))
    by_cases c2 : i < b.buffered + (64 - b.read)
    · rw [key i hi (by omega)]; simp [c2]
    · rw [BitVec.getLsbD_or, h.bits i hi, BitVec.getLsbD_shiftLeft, BitVec.getLsbD_ushiftRight,
        BitVec.getLsbD_of_ge m[b.p] _ (by omega)]
      have : ¬ i < b.buffered := by omega
      simp [c2, this]
  · rw [if_neg c]
    refine ⟨_, rfl, ⟨by show (64:Nat) ≤ 64; decide, by show b.read + (64 - b.buffered) < 64; omega,
      by show q + 64 = 64 * b.p + (b.read + (64 - b.buffered)); omega, fun i hi => ?_⟩,
      by show b.buffered < 64; omega⟩
    show (b.w ||| (m[b.p] >>> b.read) <<< b.buffered).getLsbD i = (decide (i < 64) && bitAt m (q + i))
    rw [key i hi (by omega)]; simp [hi]

theorem load_eq {m : Mem} {q n T : Nat} (hT : q + T ≤ 64 * m.length)
    (hc : ∀ b, BInv m q b → ((cnt11 b.w).toNat < n ↔ b.buffered < T)) (f : Nat) (b : Buf) (h : BInv m q b)
    (hf : 13 ≤ b.buffered + f) : ∃ b', load m n f b = some b' ∧ BInv m q b' ∧ (13 ≤ b'.buffered ∨ T ≤ b'.buffered) := by
  induction f generalizing b with
  | zero => exact ⟨b, rfl, h, Or.inl (by omega)⟩
  | succ f ih =>
    unfold load
    by_cases c : b.buffered < 13 ∧ (cnt11 b.w).toNat < n
    · have := (hc b h).1 c.2
      obtain ⟨b', h1, h2, h3⟩ := loadStep_eq h (by omega) (by omega)
      rw [if_pos c, h1, sbind]
      exact ih b' h2 (by omega)
    · rw [if_neg c]
      refine ⟨b, rfl, h, ?_⟩
      by_cases c1 : b.buffered < 13
      · right
        apply Nat.le_of_not_lt
        intro h'
        exact c ⟨c1, (hc b h).2 h'⟩
      · left; omega

theorem drop_eq {m : Mem} {q k : Nat} {b : Buf} (h : BInv m q b) (hk : k ≤ b.buffered) (hk64 : k < 64) :
    ∃ b', b.drop k = some b' ∧ BInv m (q + k) b' := by
  have hle := h.le
  have hp := h.pos
  unfold Buf.drop
  rw [if_neg (by omega), shr_of_lt hk64, sbind]
  refine ⟨_, rfl, ⟨by show b.buffered - k ≤ 64; omega, h.read, by show q + k + (b.buffered - k) = 64 * b.p + b.read; omega,
    fun i hi => ?_⟩⟩
  show (b.w >>> k).getLsbD i = (decide (i < b.buffered - k) && bitAt m (q + k + i))
  rw [BitVec.getLsbD_ushiftRight]
  by_cases c : k + i < 64
  · rw [h.bits _ c, Nat.add_assoc]
    congr 1
    simp; omega
  · rw [BitVec.getLsbD_of_ge _ _ (by omega)]
    have : ¬ i < b.buffered - k := by omega
    simp [this]

/-! ### The decoder -/

/-- The values of the code words of lengths `ls` at `q`. -/
def vals (m : Mem) : Nat → List Nat → List Word
  | _, [] => []
  | q, len :: ls => BitVec.ofNat 64 (fibSum (fun i => bitAt m (q + i)) (len - 1)) :: vals m (q + len) ls

/-- What the decoder returns and emits for the values `xs` when the accumulator is `v`. -/
def emit (sumup : Bool) (v : Word) : List Word → Word × List Word
  | [] => (v, [])
  | x :: xs =>
    let r := emit sumup (if sumup = false ∧ xs ≠ [] then 0#64 else v + x) xs
    (r.1, (v + x) :: r.2)

theorem vals_nil {m : Mem} {q : Nat} {ls : List Nat} : vals m q ls ≠ [] ↔ ls ≠ [] := by cases ls <;> simp [vals]

theorem decLoop_eq (sumup : Bool) (m : Mem) (f : Nat) (q p len : Nat) (ls : List Nat) (b : Buf) (v : Word)
    (hc : Codes (fun i => bitAt m (q + i)) (len :: ls)) (hm : q + (len :: ls).sum ≤ 64 * m.length) (hp : 12 * p + len ≤ 93)
    (hl : ∀ l ∈ ls, l ≤ 93) (hb : BInv m q b) (hp7 : p ≤ 7) (hf : 8 * ls.length + 8 ≤ f + p) :
    decLoop sumup m f (ls.length + 1) p b v =
      some (emit sumup v (BitVec.ofNat 64 (fsum (12 * p) (fun i => bitAt m (q + i)) (len - 1)) :: vals m (q + len) ls)) := by
  induction f generalizing q p len ls b v with
  | zero => omega
  | succ f ih =>
    obtain ⟨n1, -, n3⟩ := hc.count
    obtain ⟨ht, hrest⟩ := hc
    have h2 := ht.two
    have hsum : len ≤ (len :: ls).sum := by simp
    obtain ⟨b1, e1, e2, e3⟩ := load_eq (n := ls.length + 1) hm (fun b hb => by
      rw [cnt11_win hb.le hb.bits]
      constructor
      · intro h
        apply Nat.lt_of_not_le
        intro h'
        have := countTrue_mono (cut (fun i => bitAt m (q + i)) false) h'
        rw [n1] at this
        simp at this; omega
      · intro h; simpa using n3 _ h) 13 b hb (by omega)
    have hw : ∀ i, i < len → i < 13 → b1.w.getLsbD i = bitAt m (q + i) := by
      intro i hi hi2
      rw [e2.bits i (by omega)]
      have : i < b1.buffered := by omega
      simp [this]
    unfold decLoop
    rw [e1, sbind, fib95_eq ht hp (fun i h1 h2 => hw i h1 (by omega)), sbind]
    dsimp only
    by_cases c : len ≤ 13
    · rw [shift_short ht c (fun i hi => hw i hi (by omega)), sbind, if_pos (by omega)]
      obtain ⟨b2, d1, d2⟩ := drop_eq e2 (k := len) (by omega) (by omega)
      rw [d1, sbind, show min (len - 1) 12 = len - 1 by omega]
      generalize hx : BitVec.ofNat 64 (fsum (12 * p) (fun i => bitAt m (q + i)) (len - 1)) = x
      have hcond : (sumup = false ∧ ls.length + 1 ≠ 1) ↔ (sumup = false ∧ vals m (q + len) ls ≠ []) := by
        rw [vals_nil]; cases ls <;> simp
      unfold emit
      dsimp only
      cases ls with
      | nil => simp [decLoop, vals, emit]
      | cons l ls =>
        have := ih (q + len) 0 l ls b2 (if sumup = false ∧ vals m (q + len) (l :: ls) ≠ [] then 0#64 else v + x)
          (by simpa only [Nat.add_assoc] using hrest) (by simp only [List.sum_cons] at hm ⊢; omega)
          (by have := hl l (by simp); omega) (fun l' hl' => hl l' (by simp [hl'])) d2 (by omega) (by simp at hf ⊢; omega)
        rw [show (if sumup = false ∧ (l :: ls).length + 1 ≠ 1 then 0#64 else v + x) = (if sumup = false ∧ vals m (q + len) (l :: ls) ≠ [] then 0#64 else v + x) by simp only [hcond], List.length_cons, this, sbind]
        simp only [vals, Nat.mul_zero, fsum_zero]
        rfl
    · rw [shift_long ht (by omega) (fun i hi => hw i (by omega) hi), sbind, if_neg (by decide)]
      obtain ⟨b2, d1, d2⟩ := drop_eq e2 (k := 12) (by omega) (by omega)
      rw [d1, sbind, show min (len - 1) 12 = 12 by omega]
      have ht' : Tail (fun i => bitAt m (q + 12 + i)) (len - 12) := by
        refine ⟨by omega, ?_, ?_, fun i hi => ?_⟩
        · show bitAt m (q + 12 + (len - 12 - 2)) = true
          rw [show q + 12 + (len - 12 - 2) = q + (len - 2) by omega]; exact ht.top
        · show bitAt m (q + 12 + (len - 12 - 1)) = true
          rw [show q + 12 + (len - 12 - 1) = q + (len - 1) by omega]; exact ht.last
        · have := ht.first (12 + i) (by omega)
          simpa only [Nat.add_assoc] using this
      have := ih (q + 12) (p + 1) (len - 12) ls b2 (v + BitVec.ofNat 64 (fsum (12 * p) (fun i => bitAt m (q + i)) 12))
        ⟨ht', by
          have : (fun i => bitAt m (q + 12 + (len - 12 + i))) = fun i => bitAt m (q + (len + i)) := by
            funext i; congr 1; omega
          rw [this]; exact hrest⟩ (by simp only [List.sum_cons] at hm ⊢; omega) (by omega) hl d2 (by omega) (by omega)
      rw [this]
      have hs := fsum_add (12 * p) (fun i => bitAt m (q + i)) 12 (len - 12 - 1)
      rw [show 12 + (len - 12 - 1) = len - 1 by omega] at hs
      have hs2 : fsum (12 * p + 12) (fun i => bitAt m (q + (12 + i))) (len - 12 - 1) =
          fsum (12 * (p + 1)) (fun i => bitAt m (q + 12 + i)) (len - 12 - 1) := by
        simp only [Nat.add_assoc]; rfl
      rw [hs2] at hs
      unfold emit
      dsimp only
      rw [hs, BitVec.ofNat_add, BitVec.add_assoc, show q + 12 + (len - 12) = q + len by omega]

theorem decode_eq (sumup : Bool) (m : Mem) (q : Nat) (ls : List Nat) (hc : Codes (fun i => bitAt m (q + i)) ls)
    (hm : q + ls.sum ≤ 64 * m.length) (hl : ∀ l ∈ ls, l ≤ 93) :
    decode sumup m q ls.length = some (emit sumup 0#64 (vals m q ls)) := by
  unfold decode
  cases ls with
  | nil => simp [decLoop, vals, emit]
  | cons len ls =>
    have := decLoop_eq sumup m (8 * (len :: ls).length) q 0 len ls ⟨0#64, 0, q / 64, q % 64⟩ 0#64 hc hm
      (by have := hl len (by simp); omega) (fun l h => hl l (by simp [h]))
      ⟨by show 0 ≤ 64; decide, by show q % 64 < 64; omega, by show q + 0 = 64 * (q / 64) + q % 64; omega, fun i hi => by simp⟩ (by decide)
      (by simp; omega)
    rw [List.length_cons] at this ⊢
    rw [this, fsum_zero]
    rfl

theorem emit_false (v : Word) (xs : List Word) (hv : v = 0#64) : emit false v xs = (xs.getLastD 0#64, xs) := by
  subst hv
  induction xs with
  | nil => rfl
  | cons x xs ih =>
    unfold emit
    dsimp only
    cases xs with
    | nil => simp [emit]
    | cons y ys => rw [if_pos (by simp), ih]; simp

theorem emit_true (v : Word) (xs : List Word) :
    emit true v xs = (v + sumW xs, (List.range xs.length).map (fun i => v + sumW (xs.take (i + 1)))) := by
  induction xs generalizing v with
  | nil => simp [emit, sumW]
  | cons x xs ih =>
    unfold emit
    dsimp only
    rw [if_neg (by simp), ih]
    simp only [List.length_cons, List.range_succ_eq_map, List.map_cons, List.map_map, List.take_succ_cons, sumW_cons, BitVec.add_assoc]
    simp [sumW, Function.comp_def]

end Sdsl.Fib
