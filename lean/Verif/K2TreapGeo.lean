import Verif.Basic

/-! # Powers, depth and squares of the k2-treap

Model of `precomp` (include/sdsl/k2_treap_helper.hpp:41-145), of `get_t` (include/sdsl/k2_treap.hpp:84-101) and of `contained` and `overlap`
(include/sdsl/k2_treap_algorithm.hpp:43-76). Words are natural numbers below 2^64. A shift by 64 or more, a division by zero and an access
outside of a table are `none`. -/
namespace Sdsl.K2TreapGeo

/-- The number of bits of the parameters with a specialisation, k2_treap_helper.hpp:71-141. -/
def spec (k : Nat) : Option Nat :=
  if k = 2 then some 1 else if k = 4 then some 2 else if k = 8 then some 3 else if k = 16 then some 4 else none

/-- Entry `l` of the table, k2_treap_helper.hpp:46-52. -/
def tab (k : Nat) : Nat → Nat
  | 0 => 1
  | l + 1 => k * tab k l % 2 ^ 64

/-- `data.exp[l]`, k2_treap_helper.hpp:45. -/
def look (k l : Nat) : Option Nat := if l < 65 then some (tab k l) else none

/-- `exp(l)`, k2_treap_helper.hpp:55-58, 73-76, 91-94, 109-112, 127-130. -/
def exp (k l : Nat) : Option Nat :=
  match spec k with
  | some c => if c * l < 64 then some ((1 <<< (c * l)) % 2 ^ 64) else none
  | none => look k l

/-- `divexp(x,l)`, k2_treap_helper.hpp:60-63, 78-81, 96-99, 114-117, 132-135. -/
def divexp (k x l : Nat) : Option Nat :=
  match spec k with
  | some c => if c * l < 64 then some (x >>> (c * l)) else none
  | none => (look k l).bind (fun e => if e = 0 then none else some (x / e))

/-- `modexp(x,l)`, k2_treap_helper.hpp:65-68, 83-86, 101-104, 119-122, 137-140; `lo_set` has 65 entries. -/
def modexp (k x l : Nat) : Option Nat :=
  match spec k with
  | some c => if c * l < 65 then some (x &&& (2 ^ (c * l) - 1)) else none
  | none => (look k l).bind (fun e => if e = 0 then none else some (x % e))

/-- The loop of `get_t`, k2_treap.hpp:99; the first number bounds the number of iterations (fuel). -/
def depthLoop (k x : Nat) : Nat → Nat → Option Nat
  | 0, _ => none
  | f + 1, res => (exp k res).bind (fun e => if e ≤ x then depthLoop k x f (res + 1) else some res)

/-- `get_t`, k2_treap.hpp:97-100, for the largest coordinate `x`. No table has more than 65 entries, so that 66 iterations suffice. -/
def depth (k x : Nat) : Option Nat := depthLoop k x 66 0

/-- `contained(p1, p2, v)`, k2_treap_algorithm.hpp:55-65; `p` and `t` are members of `v`. -/
def contained (k : Nat) (p1 p2 p : Nat × Nat) (t : Nat) : Option Bool :=
  (exp k t).map (fun e =>
    let d := (e + 2 ^ 64 - 1) % 2 ^ 64
    decide (p1.1 ≤ p.1) && decide (p2.1 ≥ (p.1 + d) % 2 ^ 64) && decide (p1.2 ≤ p.2) && decide (p2.2 ≥ (p.2 + d) % 2 ^ 64))

/-- `overlap(p1, p2, v)`, k2_treap_algorithm.hpp:67-76. -/
def overlap (k : Nat) (p1 p2 p : Nat × Nat) (t : Nat) : Option Bool :=
  (exp k t).map (fun e =>
    let d := (e + 2 ^ 64 - 1) % 2 ^ 64
    decide (p1.1 ≤ (p.1 + d) % 2 ^ 64) && decide (p2.1 ≥ p.1) && decide (p1.2 ≤ (p.2 + d) % 2 ^ 64) && decide (p2.2 ≥ p.2))

/-! ### Proofs -/

theorem spec_pow {k c : Nat} (h : spec k = some c) : k = 2 ^ c ∧ 1 ≤ c := by
  unfold spec at h
  repeat' split at h
  all_goals simp_all
  all_goals subst h; decide

theorem tab_mod (k l : Nat) : tab k l = k ^ l % 2 ^ 64 := by
  induction l with
  | zero => rfl
  | succ l ih => rw [tab, ih, Nat.mul_mod_mod, Nat.mul_comm, ← Nat.pow_succ]

theorem lt64 {k l : Nat} (hk : 2 ≤ k) (h : k ^ l < 2 ^ 64) : l < 64 :=
  (Nat.pow_lt_pow_iff_right (a := 2) (by decide)).1 (Nat.lt_of_le_of_lt (Nat.pow_le_pow_left hk l) h)

theorem powers {k l : Nat} (hk : 2 ≤ k) (h : k ^ l < 2 ^ 64) (x : Nat) :
    exp k l = some (k ^ l) ∧ divexp k x l = some (x / k ^ l) ∧ modexp k x l = some (x % k ^ l) := by
  unfold exp divexp modexp look
  cases hs : spec k with
  | some c =>
    obtain ⟨rfl, hc⟩ := spec_pow hs
    rw [← Nat.pow_mul] at h ⊢
    have : c * l < 64 := (Nat.pow_lt_pow_iff_right (a := 2) (by decide)).1 h
    simp only
    rw [if_pos this, if_pos this, if_pos (by omega), Nat.shiftLeft_eq, Nat.one_mul, Nat.mod_eq_of_lt h, Nat.shiftRight_eq_div_pow,
      Nat.and_two_pow_sub_one_eq_mod]
    exact ⟨rfl, rfl, rfl⟩
  | none =>
    have hl := lt64 hk h
    have hp : k ^ l ≠ 0 := Nat.ne_of_gt (Nat.pow_pos (by omega))
    simp only
    rw [if_pos (by omega), tab_mod, Nat.mod_eq_of_lt h]
    simp only [Option.bind_some, if_neg hp, and_self]

theorem depthLoop_ok {k x : Nat} (hk : 2 ≤ k) (t : Nat) (h1 : x < k ^ t) (h2 : k ^ t < 2 ^ 64) (h3 : ∀ s < t, k ^ s ≤ x) :
    ∀ f res, res ≤ t → t < f + res → depthLoop k x f res = some t := by
  intro f
  induction f with
  | zero => intro res a b; omega
  | succ f ih =>
    intro res a b
    have hr : k ^ res < 2 ^ 64 := Nat.lt_of_le_of_lt (Nat.pow_le_pow_right (by omega) a) h2
    unfold depthLoop
    rw [(powers hk hr x).1, Option.bind_some]
    by_cases e : res = t
    · subst e; rw [if_neg (by omega)]
    · rw [if_pos (h3 res (by omega)), ih (res + 1) (by omega) (by omega)]

theorem least {P : Nat → Prop} [DecidablePred P] : ∀ t, P t → ∃ s ≤ t, P s ∧ ∀ r < s, ¬ P r := by
  intro t
  induction t using Nat.strongRecOn with
  | ind t ih =>
    intro h
    by_cases e : ∃ r < t, P r
    · obtain ⟨r, hr, hp⟩ := e
      obtain ⟨s, a, b, c⟩ := ih r hr hp
      exact ⟨s, by omega, b, c⟩
    · exact ⟨t, Nat.le_refl t, h, fun r hr hp => e ⟨r, hr, hp⟩⟩

theorem depthLoop_none {k c x : Nat} (hs : spec k = some c) (h : ∀ l, c * l < 64 → 2 ^ (c * l) ≤ x) :
    ∀ f res, depthLoop k x f res = none := by
  intro f
  induction f with
  | zero => intro _; rfl
  | succ f ih =>
    intro res
    unfold depthLoop exp
    rw [hs]
    simp only
    by_cases e : c * res < 64
    · rw [if_pos e, Option.bind_some, Nat.shiftLeft_eq, Nat.one_mul, Nat.mod_eq_of_lt (Nat.pow_lt_pow_right (by decide) e), if_pos (h res e), ih]
    · rw [if_neg e]; rfl

end Sdsl.K2TreapGeo
