import Verif.Serial
import Verif.IntVecLemmas
import Verif.IntVecOps
import Verif.Props.IntVectors
import Mathlib.Data.List.Forall2

/-! # Round trips of members and supports -/
namespace Sdsl.Serial
open IntVec

variable {α : Type}

/-- Writing `v` and reading it back. `ok v p`: `v` is a possible object whose pointer is `p`; `same v w`: `w` has the contents of `v`;
    `tgt u q`: `load` can be called on `u`, whose pointers need not be set; `nn`: `load` needs a pointer that is not null. -/
structure Good (c : Codec α) (nn : Bool) (ok tgt : α → Ptr → Prop) (same : α → α → Prop) : Prop where
  rt : ∀ v p, ok v p → ∃ out, c.ser v = some (out, out.length) ∧
    ∀ u q p' rest, tgt u q → (nn = true → p' ≠ none) →
      ∃ v', c.load u p' (out ++ rest) = some (v', rest) ∧ same v v' ∧ ok v' p'
  setVec : ∀ v w p p', ok w p → same v w → same v (c.setVec w p') ∧ ok (c.setVec w p') p'

theorem Good.weak {c : Codec α} {ok tgt : α → Ptr → Prop} {same : α → α → Prop} (h : Good c false ok tgt same) (nn : Bool) :
    Good c nn ok tgt same := by
  refine ⟨fun v p hv => ?_, h.setVec⟩
  obtain ⟨o, s, l⟩ := h.rt v p hv
  exact ⟨o, s, fun u q p' rest hu _ => l u q p' rest hu (by simp)⟩

/-- Any pointer. -/
def lax (ok : α → Ptr → Prop) (v : α) (_ : Ptr) : Prop := ∃ q, ok v q

theorem andThen_some (a b : List Byte) :
    (some (a, a.length) +> some (b, b.length)) = some (a ++ b, (a ++ b).length) := by
  simp [andThen]

/-! ### Numbers -/

theorem numBytes_length (b : Nat) : ∀ x, (numBytes b x).length = b := by
  induction b with
  | zero => intro x; rfl
  | succ b ih => intro x; simp [numBytes, ih]

theorem bytesNum_numBytes (b : Nat) : ∀ x, x < 256 ^ b → bytesNum (numBytes b x) = x := by
  induction b with
  | zero => intro x h; simp at h; subst h; rfl
  | succ b ih =>
    intro x h
    have h2 : x / 256 < 256 ^ b := by
      rw [Nat.div_lt_iff_lt_mul (by decide)]
      rwa [Nat.pow_succ] at h
    simp only [numBytes, bytesNum, ih _ h2, BitVec.toNat_ofNat]
    omega

theorem readMember_eq {b x : Nat} (h : x < 256 ^ b) (rest : List Byte) :
    readMember b (numBytes b x ++ rest) = some (x, rest) := by
  unfold readMember
  have hl := numBytes_length b x
  rw [if_neg (by rw [List.length_append]; omega)]
  rw [List.take_append_of_le_length (by omega), List.drop_append_of_le_length (by omega),
    List.take_of_length_le (by omega), List.drop_of_length_le (by omega), bytesNum_numBytes b x h]
  rfl

/-- A number that fits the type. -/
def okNum (b : Nat) (x : Nat) (_ : Ptr) : Prop := x < 256 ^ b

theorem num_good (b : Nat) : Good (num b) false (okNum b) (okNum b) Eq := by
  refine ⟨fun v p hv => ⟨numBytes b v, ?_, fun u q p' rest hu _ => ⟨v, readMember_eq hv rest, rfl, hv⟩⟩,
    fun v w p p' h e => ⟨e, h⟩⟩
  simp only [num, writeMember, numBytes_length]

/-! ### Vectors -/

/-- A vector of template width `tw` (0: the width is a run-time value). -/
def okVec (tw : Nat) (v : IntVec) (_ : Ptr) : Prop := v.WF ∧ v.size < 2 ^ 64 ∧ (tw ≠ 0 → v.width = tw)

/-- Same width, size and elements. -/
def sameVec (v w : IntVec) : Prop := w.width = v.width ∧ w.size = v.size ∧ w.elems = v.elems

theorem vec_good (junk : Nat → Word) (tw : Nat) : Good (vec junk tw) false (okVec tw) (okVec tw) sameVec := by
  refine ⟨fun v p hv => ?_, fun v w p p' h e => ⟨e, h⟩⟩
  obtain ⟨h1, h2, h3⟩ := hv
  obtain ⟨out, n, e1, e2, -⟩ := Props.C14_round_trip tw junk v v h1 h1 h2 (fun h => ⟨h3 h, h3 h⟩) []
  subst e2
  refine ⟨out, e1, fun u q p' rest hu _ => ?_⟩
  obtain ⟨hu1, hu2, hu3⟩ := hu
  obtain ⟨out', n', f1, -, v', g1, g2, g3, g4, g5⟩ :=
    Props.C14_round_trip tw junk v u h1 hu1 h2 (fun h => ⟨h3 h, hu3 h⟩) rest
  rw [e1] at f1
  cases f1
  exact ⟨v', g1, ⟨g3, g4, g5⟩, g2, by omega, fun h => by rw [g3]; exact h3 h⟩

/-! ### Supports -/

theorem emptySup_good : Good emptySup false Eq (lax Eq) (fun _ _ => True) := by
  refine ⟨fun v p hv => ⟨[], rfl, fun u q p' rest hu _ => ⟨p', rfl, trivial, rfl⟩⟩, fun v w p p' h e => ⟨trivial, rfl⟩⟩

/-- A rank support that points to `p`. -/
def okRank (v : RankSup) (p : Ptr) : Prop := v.m_v = p ∧ okVec 64 v.m_basic_block none

/-- Same counts. -/
def sameRank (v w : RankSup) : Prop := sameVec v.m_basic_block w.m_basic_block

theorem rankV_good (junk : Nat → Word) : Good (rankV junk) false okRank (lax okRank) sameRank := by
  refine ⟨fun v p hv => ?_, fun v w p p' h e => ⟨e, rfl, h.2⟩⟩
  obtain ⟨o, s, l⟩ := (vec_good junk 64).rt v.m_basic_block none hv.2
  refine ⟨o, s, fun u q p' rest hu _ => ?_⟩
  obtain ⟨_, hu⟩ := hu
  obtain ⟨w, e, sm, k⟩ := l u.m_basic_block none none rest hu.2 (by simp)
  refine ⟨⟨p', w⟩, ?_, sm, rfl, k⟩
  simp only [rankV, e, Option.bind_eq_bind, Option.bind_some]

theorem rankV5_good (junk : Nat → Word) : Good (rankV5 junk) true okRank (lax okRank) sameRank := by
  refine ⟨fun v p hv => ?_, fun v w p p' h e => ⟨e, rfl, h.2⟩⟩
  obtain ⟨o, s, l⟩ := (vec_good junk 64).rt v.m_basic_block none hv.2
  refine ⟨o, s, fun u q p' rest hu hp => ?_⟩
  obtain ⟨_, hu⟩ := hu
  obtain ⟨w, e, sm, k⟩ := l u.m_basic_block none none rest hu.2 (by simp)
  refine ⟨⟨p', w⟩, ?_, sm, rfl, k⟩
  cases p' with
  | none => exact absurd rfl (hp rfl)
  | some _ => simp only [rankV5, e, Option.bind_eq_bind, Option.bind_some]

/-! ### `std::vector` -/

theorem serVector_good {c : Codec α} {ok tgt : α → Ptr → Prop} {same : α → α → Prop} (hc : Good c false ok tgt same) :
    ∀ l : List α, (∀ x ∈ l, ok x none) → ∃ out, serVector c l = some (out, out.length) ∧
      ∀ us rest, us.length = l.length → (∀ x ∈ us, tgt x none) →
        ∃ l', loadVector c us (out ++ rest) = some (l', rest) ∧ List.Forall₂ same l l' ∧ ∀ x ∈ l', ok x none := by
  intro l
  induction l with
  | nil =>
    intro _
    refine ⟨[], rfl, fun us rest hl _ => ⟨[], ?_, .nil, by simp⟩⟩
    rw [List.length_nil, List.length_eq_zero_iff] at hl
    subst hl; rfl
  | cons x l ih =>
    intro h
    obtain ⟨o1, s1, l1⟩ := hc.rt x none (h x (by simp))
    obtain ⟨o2, s2, l2⟩ := ih (fun y hy => h y (by simp [hy]))
    refine ⟨o1 ++ o2, by simp only [serVector, s1, s2, andThen_some], fun us rest hl hu => ?_⟩
    cases us with
    | nil => simp at hl
    | cons u us =>
      obtain ⟨xs, e2, m2, k2⟩ := l2 us rest (by simpa using hl) (fun y hy => hu y (by simp [hy]))
      obtain ⟨w, e1, m1, k1⟩ := l1 u none none (o2 ++ rest) (hu u (by simp)) (by simp)
      refine ⟨w :: xs, ?_, .cons m1 m2, fun y hy => ?_⟩
      · simp only [loadVector, List.append_assoc, e1, e2, Option.bind_eq_bind, Option.bind_some]
      · rcases List.mem_cons.mp hy with rfl | hy
        · exact k1
        · exact k2 y hy

theorem resize_length {d : α} (l : List α) (n : Nat) : (resize d l n).length = n := by
  unfold resize
  rw [List.length_append, List.length_take, List.length_replicate]; omega

theorem resize_mem {d : α} {l : List α} {n : Nat} {P : α → Prop} (hd : P d) (hl : ∀ x ∈ l, P x) :
    ∀ x ∈ resize d l n, P x := by
  intro x hx
  unfold resize at hx
  rcases List.mem_append.mp hx with h | h
  · exact hl x (List.mem_of_mem_take h)
  · rw [(List.mem_replicate.mp h).2]; exact hd

/-- A `std::vector` of possible objects. -/
def okList (ok : α → Ptr → Prop) (l : List α) (_ : Ptr) : Prop := l.length < 2 ^ 64 ∧ ∀ x ∈ l, ok x none

theorem Forall₂_length {same : α → α → Prop} {l l' : List α} (h : List.Forall₂ same l l') : l.length = l'.length := h.length_eq

theorem stdVector_good {c : Codec α} {ok tgt : α → Ptr → Prop} {same : α → α → Prop} (hc : Good c false ok tgt same) {d : α}
    (hd : tgt d none) : Good (stdVector c d) false (okList ok) (okList tgt) (List.Forall₂ same) := by
  refine ⟨fun v p hv => ?_, fun v w p p' h e => ⟨e, h⟩⟩
  obtain ⟨o, s, l⟩ := serVector_good hc v hv.2
  refine ⟨numBytes 8 v.length ++ o, ?_, fun u q p' rest hu _ => ?_⟩
  · simp only [stdVector, s, writeMember]
    rw [← andThen_some, numBytes_length]
  · obtain ⟨w, e, m, k⟩ := l (resize d u v.length) rest (resize_length _ _) (resize_mem hd hu.2)
    refine ⟨w, ?_, m, by rw [← m.length_eq]; exact hv.1, k⟩
    simp only [stdVector, List.append_assoc, readMember_eq (b := 8) (x := v.length) (by simpa using hv.1), e,
      Option.bind_eq_bind, Option.bind_some]

end Sdsl.Serial
