import Verif.Basic

/-! # `construct_isa`

Model of lib/construct_isa.cpp:10-24. The cache holds at most one file for the suffix array and one for its inverse; an access outside of the
vector is undefined (`none`). `int_vector<>` has elements of 64 bits, and the indexes are below 2^64. -/
namespace Sdsl.Isa

/-- What is registered in `cache_config` under `KEY_SA` and `KEY_ISA`. -/
structure Cache where
  sa : Option (List Nat)
  isa : Option (List Nat)
  deriving DecidableEq

inductive Res where
  | ok (c : Cache)
  | failure
  | undefined
  deriving DecidableEq

/-- The loop, construct_isa.cpp:19-21, from index `i` on. -/
def loop : List Nat → Nat → List Nat → Option (List Nat)
  | [], _, isa => some isa
  | x :: l, i, isa => if x < isa.length then loop l (i + 1) (isa.set x i) else none

/-- `construct_isa`, construct_isa.cpp:10-24. -/
def construct (c : Cache) : Res :=
  match c.isa with
  | some _ => .ok c
  | none =>
    match c.sa with
    | none => .failure
    | some sa =>
      match loop sa 0 (List.replicate sa.length 0) with
      | none => .undefined
      | some isa => .ok { c with isa := some isa }

/-! ### Proofs -/

theorem loop_ok : ∀ (l : List Nat) (i : Nat) (isa : List Nat), (∀ x ∈ l, x < isa.length) → l.Nodup →
    ∃ r, loop l i isa = some r ∧ r.length = isa.length ∧ (∀ j (h : j < l.length), r[l[j]]? = some (i + j)) ∧
      ∀ x, x ∉ l → r[x]? = isa[x]? := by
  intro l
  induction l with
  | nil => intro i isa _ _; exact ⟨isa, rfl, rfl, fun j h => absurd h (by simp), fun _ _ => rfl⟩
  | cons x l ih =>
    intro i isa h hn
    have hx := h x (by simp)
    obtain ⟨r, h1, h2, h3, h4⟩ := ih (i + 1) (isa.set x i) (fun y hy => by rw [List.length_set]; exact h y (by simp [hy])) (List.nodup_cons.1 hn).2
    refine ⟨r, by rw [loop, if_pos hx, h1], by rw [h2, List.length_set], fun j hj => ?_, fun y hy => ?_⟩
    · cases j with
      | zero => rw [List.getElem_cons_zero, h4 x (List.nodup_cons.1 hn).1, List.getElem?_set_self hx, Nat.add_zero]
      | succ j =>
        rw [List.getElem_cons_succ, h3 j (by simpa using hj)]
        congr 1; omega
    · have hne : x ≠ y := fun e => hy (by simp [e])
      rw [h4 y (fun hm => hy (by simp [hm])), List.getElem?_set_ne hne]

end Sdsl.Isa
