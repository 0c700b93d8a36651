/-
  The coder template arguments of `enc_vector` and `vlc_vector`, and the values they can handle.
-/
import Verif.EncLemmas

namespace Sdsl

open Bits Spec

/-- The coders of the library. -/
inductive CoderKind where
  | gamma
  | delta
  | comma (t : Nat)
  | fib

namespace CoderKind

/-- Their models; `sh` is the outcome of `1ULL<<64` in the Elias decoders. -/
def vc (sh : Option Word) : CoderKind → VC
  | .gamma => VC.elias sh Coder.gamma
  | .delta => VC.elias sh Coder.delta
  | .comma t => VC.comma t
  | .fib => VC.fib

/-- The comma code is proved for widths 2..30. -/
def Valid : CoderKind → Prop
  | .comma t => 2 ≤ t ∧ t ≤ 30
  | _ => True

/-- The values a coder encodes and decodes without undefined behaviour: for the Elias codes 0 is decoded by `1ULL<<64`; for
    the Fibonacci code a digit at position 64 or below is needed. -/
def Ok (sh : Option Word) (w : Word) : CoderKind → Prop
  | .gamma => sh ≠ none ∨ w ≠ 0#64
  | .delta => sh ≠ none ∨ w ≠ 0#64
  | .comma _ => True
  | .fib => zeck 93 (fibNum w) % 2 ^ 65 ≠ 0

/-- Is the coder one of the Elias codes, whose `decode_prefix_sum` looks 16 bits ahead? -/
def elias : CoderKind → Bool
  | .gamma => true
  | .delta => true
  | _ => false

theorem good (sh : Option Word) (k : CoderKind) (hk : k.Valid) {dens : Nat} (hd : k = .fib → dens ≤ 2 ^ 23) :
    ∃ bits, VGood (k.vc sh) bits (fun w => k.Ok sh w) (fun w => k.Ok sh w) ∧
      VPsum (k.vc sh) bits (fun w => k.Ok sh w) (if k.elias then 15 else 0) (dens - 1) := by
  have weaken : ∀ {c bits} {E D E' D' : Word → Prop}, VGood c bits E D → (∀ w, E' w → E w) → (∀ w, D' w → D w) → VGood c bits E' D' := by
    intro c bits E D E' D' g h1 h2
    exact ⟨g.pos, g.lenLe, g.encLen, fun h => g.encode1 (h1 _ h), fun h h' => g.last h (fun w hw => h2 w (h' w hw)),
      fun h h' => g.sums h (fun w hw => h2 w (h' w hw))⟩
  cases k with
  | gamma => exact ⟨_, weaken (vgood_elias Coder.goodSum_gamma.toGood gamma_len sh) (fun _ _ => trivial) (fun _ h => h),
      vpsum_elias Coder.goodSum_gamma sh _⟩
  | delta => exact ⟨_, weaken (vgood_elias Coder.goodSum_delta.toGood delta_len sh) (fun _ _ => trivial) (fun _ h => h),
      vpsum_elias Coder.goodSum_delta sh _⟩
  | comma t => exact ⟨_, weaken (vgood_comma hk.1 hk.2) (fun _ _ => trivial) (fun _ _ => trivial),
      fun h _ hl hs => vpsum_comma hk.1 hk.2 _ h (fun _ _ => trivial) hl hs⟩
  | fib =>
    refine ⟨_, weaken vgood_fib (fun _ h => h) (fun _ _ => trivial), fun h _ hl hs => vpsum_fib h (fun _ _ => trivial) ?_ hs⟩
    have := hd rfl
    omega

end CoderKind

namespace Enc

/-- The differences of values that do not decrease are computed exactly in every value type. -/
theorem diff_le {tw : Nat} {a b : Word} (htw : tw = 64 ∨ (a.toNat < 2 ^ tw ∧ b.toNat ≤ a.toNat)) : diff tw a b = a - b ∧ diffX tw a b = a - b := by
  have key : tw = 64 ∨ (a - b).toNat < 2 ^ tw := by
    rcases htw with h | ⟨h1, h2⟩
    · exact Or.inl h
    · right
      rw [BitVec.toNat_sub_of_le (BitVec.le_def.2 h2)]; omega
  have hx : diffX tw a b = a - b := by
    unfold diffX
    rcases key with h | h
    · rw [h, Nat.mod_eq_of_lt (BitVec.isLt _), BitVec.ofNat_toNat]; simp
    · rw [Nat.mod_eq_of_lt h, BitVec.ofNat_toNat]; simp
  refine ⟨?_, hx⟩
  unfold diff
  by_cases h32 : tw = 32
  · rw [if_pos h32]; rw [← h32]; exact hx
  · rw [if_neg h32]

/-- Conditions on neighbours of a list, in the form `AllD` of the constructors. -/
theorem allD_list {R : Word → Word → Prop} {dens : Nat} (hd : 0 < dens) {xs : List Word} (v1 : Word)
    (h : ∀ i a b, xs[i]? = some b → xs[i + 1]? = some a → (i + 1) % dens ≠ 0 → R a b) : AllD R dens 0 v1 xs := by
  apply allD_of hd hd
  intro i a b h1 h2 h3
  cases i with
  | zero => simp at h3
  | succ i =>
    apply h i a b (by simpa using h2) (by simpa using h1)
    rwa [Nat.sub_zero, Nat.add_mod_right] at h3

end Enc

end Sdsl
