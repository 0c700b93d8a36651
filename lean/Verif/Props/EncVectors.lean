/-
  C30 (`enc_vector`) and C31 (`vlc_vector`).
-/
import Verif.EncKinds

namespace Sdsl.Props

open Bits Spec

/-- What C30 says of a built vector: the size, every element by `operator[]` (with the words `pad` readable behind the code
    memory), every sample, and for every block the differences to its sample. -/
def EncReads (k : CoderKind) (sh : Option Word) (dens : Nat) (xs : List Word) (e : Enc.Vec) : Prop :=
  e.size = xs.length ∧
  (∀ pad, (k.elias = true → pad ≠ [] ∨ e.zbits % 64 ≤ 49) → ∀ i x, xs[i]? = some x → Enc.get (k.vc sh) dens e pad i = some x) ∧
  (∀ i x, xs[i * dens]? = some x → Enc.sample e i = some x) ∧
  (∀ i, i * dens < xs.length → Enc.inter (k.vc sh) dens e i = some ((List.range (min dens (xs.length - i * dens))).map
    (fun j => xs.getD (i * dens + j) 0#64 - xs.getD (i * dens) 0#64)))

theorem enc_reads {k : CoderKind} {sh : Option Word} {dens : Nat} {bits : Word → List Bool} {v1 : Word} {xs : List Word} {e : Enc.Vec}
    (g : VGood (k.vc sh) bits (fun w => k.Ok sh w) (fun w => k.Ok sh w))
    (gp : VPsum (k.vc sh) bits (fun w => k.Ok sh w) (if k.elias then 15 else 0) (dens - 1)) (hd : 0 < dens)
    (h : Enc.Rep bits dens v1 xs e) (hD : Enc.AllD (fun a b => k.Ok sh (a - b)) dens 0 v1 xs) : EncReads k sh dens xs e := by
  refine ⟨h.size, fun pad hp i x hi => Enc.get_eq g gp hd h hD hi pad ?_, fun i x hi => Enc.sample_eq hd h hi, fun i hi => Enc.inter_eq g hd h hD hi⟩
  rw [h.zlen]
  cases hk : k.elias with
  | false => simp; omega
  | true =>
    have hp := hp hk
    rw [if_pos rfl]
    rcases hp with hp | hp
    · have : 0 < pad.length := by cases pad with | nil => exact absurd rfl hp | cons _ _ => simp
      omega
    · omega

/-- C30. Restrictions (the full claim is refuted by the four findings below): the differences inside a block must be encodable by
    the coder without undefined behaviour; with a value type below 64 bits values must not decrease inside a block; for the Elias coders
    `operator[]` needs a readable word behind the code memory unless the last 14 bits of it are free. -/
theorem C30_enc_vector_partial (k : CoderKind) (hk : k.Valid) (sh : Option Word) (tw dens sw : Nat) (hd : 0 < dens) (hdf : k = .fib → dens ≤ 2 ^ 23)
    (xs : List Word)
    (htw : tw = 64 ∨ (∀ x ∈ xs, x.toNat < 2 ^ tw) ∧
      ∀ i a b, xs[i]? = some b → xs[i + 1]? = some a → (i + 1) % dens ≠ 0 → b.toNat ≤ a.toNat)
    (hok : ∀ i a b, xs[i]? = some b → xs[i + 1]? = some a → (i + 1) % dens ≠ 0 → k.Ok sh (a - b))
    (hsw : sw = 0 ∨ (∀ x ∈ xs, x.toNat < 2 ^ sw) ∧ 255 * xs.length + 1 < 2 ^ sw) (hlen : 255 * xs.length + 1 < 2 ^ 64) :
    ∃ e, Enc.construct (k.vc sh) tw dens sw xs = some e ∧ EncReads k sh dens xs e := by
  obtain ⟨bits, g, gp⟩ := k.good sh hk hdf
  cases xs with
  | nil => exact ⟨_, rfl, rfl, fun _ _ _ _ h => by simp at h, fun _ _ h => by simp at h, fun _ h => by simp at h⟩
  | cons x l =>
    have hD := Enc.allD_list (R := fun a b => Enc.diff tw a b = a - b ∧ Enc.diffX tw a b = a - b ∧ k.Ok sh (a - b)) hd x (xs := x :: l) (by
      intro i a b h1 h2 h3
      have := Enc.diff_le (tw := tw) (a := a) (b := b) (by
        rcases htw with h | h
        · exact Or.inl h
        · exact Or.inr ⟨h.1 a (List.mem_of_getElem? h2), h.2 i a b h1 h2 h3⟩)
      exact ⟨this.1, this.2, hok i a b h1 h2 h3⟩)
    obtain ⟨e, h1, h2⟩ := Enc.construct_eq g hD hsw hlen
    exact ⟨e, h1, enc_reads g gp hd h2 (Enc.allD_mono (fun _ _ h => h.2.2) hD)⟩

/-- C30 for the constructor from a buffer, with the same restrictions (all arithmetic is 64-bit there). -/
theorem C30_enc_vector_buffer_partial (k : CoderKind) (hk : k.Valid) (sh : Option Word) (dens sw : Nat) (hd : 0 < dens) (hdf : k = .fib → dens ≤ 2 ^ 23)
    (xs : List Word)
    (hok : ∀ i a b, xs[i]? = some b → xs[i + 1]? = some a → (i + 1) % dens ≠ 0 → k.Ok sh (a - b))
    (hsw : sw = 0 ∨ (∀ x ∈ xs, x.toNat < 2 ^ sw) ∧ 255 * xs.length + 1 < 2 ^ sw) (hlen : 255 * xs.length + 1 < 2 ^ 64) :
    ∃ e, Enc.constructBuf (k.vc sh) dens sw xs = some e ∧ EncReads k sh dens xs e := by
  obtain ⟨bits, g, gp⟩ := k.good sh hk hdf
  by_cases hne : xs = []
  · subst hne
    exact ⟨_, rfl, rfl, fun _ _ _ _ h => by simp at h, fun _ _ h => by simp at h, fun _ h => by simp at h⟩
  · have hD := Enc.allD_list (R := fun a b => k.Ok sh (a - b)) hd 0#64 (xs := xs) hok
    obtain ⟨e, h1, h2⟩ := Enc.constructBuf_eq g hne hD hsw hlen
    exact ⟨e, h1, enc_reads g gp hd h2 hD⟩

/-- C30 without restriction on the values: comma code and 64-bit values. -/
theorem C30_enc_vector_comma (t : Nat) (h2 : 2 ≤ t) (h30 : t ≤ 30) (dens sw : Nat) (hd : 0 < dens) (xs : List Word)
    (hsw : sw = 0 ∨ (∀ x ∈ xs, x.toNat < 2 ^ sw) ∧ 255 * xs.length + 1 < 2 ^ sw) (hlen : 255 * xs.length + 1 < 2 ^ 64) :
    ∃ e, Enc.construct (VC.comma t) 64 dens sw xs = some e ∧ e.size = xs.length ∧
      ∀ i x, xs[i]? = some x → Enc.get (VC.comma t) dens e [] i = some x := by
  obtain ⟨e, h1, h2, h3, -⟩ := C30_enc_vector_partial (.comma t) ⟨h2, h30⟩ none 64 dens sw hd (by simp) xs (Or.inl rfl) (fun _ _ _ _ _ _ => trivial)
    hsw hlen
  exact ⟨e, h1, h2, h3 [] (by simp [CoderKind.elias])⟩

/-- Decreasing and equal 64-bit values, three blocks. -/
example : (Enc.construct (VC.elias (some 1#64) Coder.delta) 64 3 0 [9#64, 4#64, 4#64, 1000#64, 0#64, 0xffffffffffffffff#64, 5#64]).bind (fun e =>
    (List.range 7).mapM (Enc.get (VC.elias (some 1#64) Coder.delta) 3 e [77#64])) =
      some [9#64, 4#64, 4#64, 1000#64, 0#64, 0xffffffffffffffff#64, 5#64] := by decide +kernel

example : (Enc.constructBuf VC.fib 4 64 [9#64, 14#64, 14#64, 1000#64, 3#64, 4#64]).bind (fun e =>
    (List.range 6).mapM (Enc.get VC.fib 4 e [])) = some [9#64, 14#64, 14#64, 1000#64, 3#64, 4#64] := by decide +kernel

example : (Enc.construct (VC.comma 4) 32 2 32 [9#64, 14#64, 3#64, 4#64, 4000000000#64]).bind (fun e =>
    (List.range 5).mapM (Enc.get (VC.comma 4) 2 e [])) = some [9#64, 14#64, 3#64, 4#64, 4000000000#64] := by decide +kernel

/-- The hypotheses of `C30_enc_vector_partial` for the values of the first example. -/
example : ∀ i a b, [9#64, 4#64, 4#64, 1000#64][i]? = some b → [9#64, 4#64, 4#64, 1000#64][i + 1]? = some a → (i + 1) % 3 ≠ 0 →
    CoderKind.delta.Ok (some 1#64) (a - b) := fun _ _ _ _ _ _ => Or.inl (by simp)

/-- Finding (C30): equal neighbours inside a block are decoded by evaluating `1ULL<<64`, undefined behaviour. -/
theorem C30_equal_neighbours : (Enc.construct (VC.elias none Coder.delta) 64 4 0 [7#64, 7#64]).bind (fun e =>
    Enc.get (VC.elias none Coder.delta) 4 e [0#64] 1) = none ∧ Enc.construct (VC.elias none Coder.delta) 64 4 0 [7#64, 7#64] ≠ none := by
  decide +kernel

/-- Finding (C30): with 32-bit values a decrease inside a block makes the value come back `2^32` too large. -/
theorem C30_uint32_decrease : (Enc.construct (VC.elias none Coder.delta) 32 4 0 [5#64, 3#64]).bind (fun e =>
    Enc.get (VC.elias none Coder.delta) 4 e [0#64] 1) = some 0x100000003#64 := by decide +kernel

/-- Finding (C30): with 8-bit or 16-bit values a decrease inside a block makes the first pass, the second pass and the writing pass
    disagree on the length of the code, and the constructor writes out of bounds. -/
theorem C30_uint8_decrease : Enc.construct (VC.elias none Coder.gamma) 8 4 0 [5#64, 3#64] = none := by decide +kernel

/-- Finding (C30): `operator[]` can read the word behind the code memory (default coder and density; the vector itself is well built). -/
theorem C30_reads_past_end : ∃ e,
    Enc.construct (VC.elias none Coder.delta) 64 128 0 [0#64, 16#64, 32#64, 48#64, 64#64, 80#64, 96#64, 112#64] = some e ∧
    Enc.get (VC.elias none Coder.delta) 128 e [] 7 = none ∧ Enc.get (VC.elias none Coder.delta) 128 e [0#64] 7 = some 112#64 := by
  have h : (Enc.construct (VC.elias none Coder.delta) 64 128 0 [0#64, 16#64, 32#64, 48#64, 64#64, 80#64, 96#64, 112#64]).map
    (fun e => (Enc.get (VC.elias none Coder.delta) 128 e [] 7, Enc.get (VC.elias none Coder.delta) 128 e [0#64] 7)) = some (none, some 112#64) := by
    decide +kernel
  rw [Option.map_eq_some_iff] at h
  obtain ⟨e, h1, h2⟩ := h
  exact ⟨e, h1, congrArg Prod.fst h2, congrArg Prod.snd h2⟩

theorem vlc_inc {tw : Nat} {x : Word} (hx : tw = 64 ∨ tw ≤ 32 ∧ x.toNat < 2 ^ tw) :
    (32 ≤ tw → x.toNat = 2 ^ tw - 1 → Vlc.inc tw x = 0#64) ∧
    ((32 ≤ tw → x.toNat ≠ 2 ^ tw - 1) → Vlc.inc tw x ≠ 0#64 ∧ Vlc.inc tw x - 1#64 = x) := by
  have e : (x + 1#64).toNat = (x.toNat + 1) % 2 ^ 64 := by rw [BitVec.toNat_add]; rfl
  have hlt := x.isLt
  unfold Vlc.inc
  by_cases h32 : tw = 32
  · subst h32
    rw [if_pos rfl]
    have hx := (hx.resolve_left (by decide)).2
    constructor
    · intro _ h
      rw [e, h]
    · intro h
      have h := h (by decide)
      have h1 : (x + 1#64).toNat % 2 ^ 32 = x.toNat + 1 := by rw [e]; omega
      rw [h1]
      have h2 : BitVec.ofNat 64 (x.toNat + 1) = x + 1#64 := by rw [BitVec.ofNat_add, BitVec.ofNat_toNat]; simp
      rw [h2]
      refine ⟨fun h0 => ?_, BitVec.add_sub_cancel _ _⟩
      have := congrArg BitVec.toNat h0
      rw [e] at this
      simp at this; omega
  · rw [if_neg h32]
    constructor
    · intro h1 h2
      have : tw = 64 := by omega
      subst this
      apply BitVec.eq_of_toNat_eq
      rw [e, h2]; rfl
    · intro h
      refine ⟨fun h0 => ?_, BitVec.add_sub_cancel _ _⟩
      have := congrArg BitVec.toNat h0
      rw [e] at this
      simp at this
      rcases hx with h64 | ⟨h1, h2⟩
      · subst h64; have := h (by decide); omega
      · have : 2 ^ tw ≤ 2 ^ 32 := Nat.pow_le_pow_right (by decide) h1
        omega

/-- C31: with every coder every value comes back, for every density and every value type. For the Fibonacci coder the
    restriction of C28 applies to the stored numbers `x+1` (`hf`), therefore `_partial`. -/
theorem C31_vlc_vector_partial (k : CoderKind) (hk : k.Valid) (sh : Option Word) (tw dens : Nat) (hd : 0 < dens) (junk : Nat → Word) (xs : List Word)
    (hf : k = .fib → ∀ x ∈ xs, zeck 93 (x.toNat + 1) % 2 ^ 65 ≠ 0)
    (hx : tw = 64 ∨ tw ≤ 32 ∧ ∀ x ∈ xs, x.toNat < 2 ^ tw) (hmax : ∀ x ∈ xs, 32 ≤ tw → x.toNat ≠ 2 ^ tw - 1)
    (hlen : 255 * xs.length + 1 < 2 ^ 64) :
    ∃ e, Vlc.construct (k.vc sh) tw dens junk xs = some (.ok e) ∧ e.size = xs.length ∧
      ∀ i x, xs[i]? = some x → Vlc.get (k.vc sh) dens e i = some x := by
  obtain ⟨bits, g, -⟩ := k.good sh hk (dens := 1) (fun _ => by decide)
  have hinc : ∀ x ∈ xs, Vlc.inc tw x ≠ 0#64 ∧ Vlc.inc tw x - 1#64 = x := fun x hm =>
    (vlc_inc (hx.imp id (fun h => ⟨h.1, h.2 x hm⟩))).2 (hmax x hm)
  by_cases hne : xs = []
  · subst hne
    exact ⟨_, rfl, rfl, fun _ _ h => by simp at h⟩
  · have hok : ∀ x ∈ xs, k.Ok sh (Vlc.inc tw x) := by
      intro x hm
      cases k with
      | gamma => exact Or.inr (hinc x hm).1
      | delta => exact Or.inr (hinc x hm).1
      | comma t => trivial
      | fib =>
        have h1 := hf rfl x hm
        obtain ⟨h2, h3⟩ := hinc x hm
        have h4 : fibNum (Vlc.inc tw x) = x.toNat + 1 := by
          unfold fibNum
          rw [if_neg h2]
          have h5 : Vlc.inc tw x = x + 1#64 := by
            have := (BitVec.sub_add_cancel (Vlc.inc tw x) 1#64).symm
            rwa [h3] at this
          rw [h5] at h2 ⊢
          rw [BitVec.toNat_add]
          apply Nat.mod_eq_of_lt
          show x.toNat + 1 < 2 ^ 64
          apply Nat.lt_of_le_of_ne (by have := x.isLt; omega)
          intro h6
          apply h2
          apply BitVec.eq_of_toNat_eq
          rw [BitVec.toNat_add]
          show (x.toNat + 1) % 2 ^ 64 = 0
          rw [h6]
        show zeck 93 (fibNum (Vlc.inc tw x)) % 2 ^ 65 ≠ 0
        rw [h4]; exact h1
    obtain ⟨e, h1, h2, h3, h4⟩ := Vlc.construct_ok (tw := tw) g hd junk hne (fun x hm => (hinc x hm).1) hok hlen
    refine ⟨e, h1, h2, fun i x hi => ?_⟩
    rw [Vlc.get_eq g hok h3 h4 hi, (hinc x (List.mem_of_getElem? hi)).2]

/-- C31 in full for the Elias and comma coders. -/
theorem C31_vlc_vector (k : CoderKind) (hk : k.Valid) (hf : k ≠ .fib) (sh : Option Word) (tw dens : Nat) (hd : 0 < dens) (junk : Nat → Word) (xs : List Word)
    (hx : tw = 64 ∨ tw ≤ 32 ∧ ∀ x ∈ xs, x.toNat < 2 ^ tw) (hmax : ∀ x ∈ xs, 32 ≤ tw → x.toNat ≠ 2 ^ tw - 1)
    (hlen : 255 * xs.length + 1 < 2 ^ 64) :
    ∃ e, Vlc.construct (k.vc sh) tw dens junk xs = some (.ok e) ∧ e.size = xs.length ∧
      ∀ i x, xs[i]? = some x → Vlc.get (k.vc sh) dens e i = some x :=
  C31_vlc_vector_partial k hk sh tw dens hd junk xs (fun h => absurd h hf) hx hmax hlen

/-- C31: a container with a value that cannot be stored (the largest 64-bit or 32-bit number) raises `logic_error`. -/
theorem C31_vlc_vector_error (k : CoderKind) (hk : k.Valid) (sh : Option Word) (tw dens : Nat) (junk : Nat → Word) (xs : List Word)
    (htw : tw = 64 ∨ tw = 32) (x : Word) (hx : x ∈ xs) (hmax : x.toNat = 2 ^ tw - 1) :
    Vlc.construct (k.vc sh) tw dens junk xs = some (.error "vlc_vector cannot decode values smaller than 1!") := by
  obtain ⟨bits, g, -⟩ := k.good sh hk (dens := 1) (fun _ => by decide)
  unfold Vlc.construct
  rw [if_neg (fun h => by simp [h] at hx), Vlc.pass1_error g.encLen hx ((vlc_inc (by
    rcases htw with h | h
    · exact Or.inl h
    · exact Or.inr ⟨by omega, by rw [hmax]; have := Nat.two_pow_pos tw; omega⟩)).1 (by omega) hmax)]
  rfl

example : ((Vlc.construct (VC.elias none Coder.delta) 64 2 (fun _ => 77#64) [9#64, 0#64, 1000#64, 0xfffffffffffffffe#64, 5#64]).bind (fun e => match e with
    | .ok e => (List.range 5).mapM (Vlc.get (VC.elias none Coder.delta) 2 e)
    | .error _ => none)) = some [9#64, 0#64, 1000#64, 0xfffffffffffffffe#64, 5#64] := by decide +kernel

example : ((Vlc.construct VC.fib 8 3 (fun _ => 77#64) [9#64, 0#64, 255#64, 5#64]).bind (fun e => match e with
    | .ok e => (List.range 4).mapM (Vlc.get VC.fib 3 e)
    | .error _ => none)) = some [9#64, 0#64, 255#64, 5#64] ∧ zeck 93 256 % 2 ^ 65 ≠ 0 := by decide +kernel

example : (Vlc.construct (VC.comma 3) 32 2 (fun _ => 0#64) [9#64, 0xffffffff#64]).isSome = true := by decide +kernel

/-- Finding (C31): the largest 32-bit number in a container of 32-bit numbers is rejected although it is representable
    (the same number in a container of 64-bit numbers is stored); with the Fibonacci coder `x+1 = ` the 67th Fibonacci number makes
    the constructor shift by a negative amount instead of raising. -/
theorem C31_rejects_and_shifts :
    Vlc.construct (VC.elias none Coder.delta) 32 2 (fun _ => 0#64) [0xffffffff#64] = some (.error "vlc_vector cannot decode values smaller than 1!") ∧
    (∃ e, Vlc.construct (VC.elias none Coder.delta) 64 2 (fun _ => 0#64) [0xffffffff#64] = some (.ok e)) ∧
    Vlc.construct VC.fib 64 2 (fun _ => 0#64) [0x28e0b4bf2bf4#64] = none := by
  refine ⟨C31_vlc_vector_error .delta trivial none 32 2 _ _ (Or.inr rfl) 0xffffffff#64 (by simp) (by decide), ?_, ?_⟩
  · obtain ⟨e, h, -⟩ := C31_vlc_vector .delta trivial (by simp) none 64 2 (by decide) (fun _ => 0#64) [0xffffffff#64] (Or.inl rfl)
      (by intro x hx; rw [List.mem_singleton] at hx; subst hx; decide) (by decide)
    exact ⟨e, h⟩
  · decide +kernel

end Sdsl.Props
