/-
  Lemmas about `inv_perm_support`: cycles of a permutation and the traces of the two passes.
-/
import Verif.InvPerm
import Verif.UtilLemmas
import Verif.BitsSel
import Mathlib.Data.Finset.Card

namespace Sdsl.InvPerm

open Bits Spec

/-- `v` is a permutation of `0 … v.length-1`. -/
structure IsPerm (v : List Nat) : Prop where
  lt : ∀ x ∈ v, x < v.length
  nodup : v.Nodup

/-- `v[j]`. -/
def f (v : List Nat) (j : Nat) : Nat := v.getD j 0

/-- `k` steps along the cycle. -/
def it (v : List Nat) : Nat → Nat → Nat
  | 0, j => j
  | k + 1, j => f v (it v k j)

theorem it_add (v : List Nat) (a b j : Nat) : it v (a + b) j = it v a (it v b j) := by
  induction a with
  | zero => rw [Nat.zero_add]; rfl
  | succ a ih => rw [show a + 1 + b = a + b + 1 by omega, it, ih, it]

theorem it_one (v : List Nat) (j : Nat) : it v 1 j = f v j := rfl

section
variable {v : List Nat} (hp : IsPerm v)
include hp

omit hp in
theorem v_get {j : Nat} (h : j < v.length) : v[j]? = some (f v j) := by
  unfold f
  rw [List.getD_eq_getElem?_getD, List.getElem?_eq_getElem h]; rfl

theorem f_lt {j : Nat} (h : j < v.length) : f v j < v.length := by
  unfold f
  rw [List.getD_eq_getElem?_getD, List.getElem?_eq_getElem h]
  exact hp.lt _ (List.getElem_mem h)

theorem f_inj {a b : Nat} (ha : a < v.length) (hb : b < v.length) (h : f v a = f v b) : a = b := by
  unfold f at h
  rw [List.getD_eq_getElem?_getD, List.getElem?_eq_getElem ha, List.getD_eq_getElem?_getD, List.getElem?_eq_getElem hb] at h
  exact (List.Nodup.getElem_inj_iff hp.nodup).1 h

theorem it_lt {j : Nat} (h : j < v.length) (k : Nat) : it v k j < v.length := by
  induction k with
  | zero => exact h
  | succ k ih => exact f_lt hp ih

theorem it_cancel {x y : Nat} (hx : x < v.length) (hy : y < v.length) (k : Nat) (h : it v k x = it v k y) : x = y := by
  induction k with
  | zero => exact h
  | succ k ih => exact ih (f_inj hp (it_lt hp hx k) (it_lt hp hy k) h)

end

/-- `i` lies on a cycle of length `L`. -/
structure IsCyc (v : List Nat) (i L : Nat) : Prop where
  pos : 0 < L
  le : L ≤ v.length
  ret : it v L i = i
  min : ∀ m, 0 < m → m < L → it v m i ≠ i

theorem exists_least {P : Nat → Prop} (h : ∃ x, P x) : ∃ x, P x ∧ ∀ y, y < x → ¬P y := by
  obtain ⟨x, hx⟩ := h
  induction x using Nat.strongRecOn with
  | _ x ih =>
    by_cases c : ∃ y, y < x ∧ P y
    · obtain ⟨y, h1, h2⟩ := c; exact ih y h1 h2
    · exact ⟨x, hx, fun y h1 h2 => c ⟨y, h1, h2⟩⟩

theorem exists_cyc {v : List Nat} (hp : IsPerm v) {i : Nat} (hi : i < v.length) : ∃ L, IsCyc v i L := by
  have h1 : ∃ a b, a < b ∧ b ≤ v.length ∧ it v a i = it v b i := by
    obtain ⟨a, ha, b, hb, hne, h⟩ := Finset.exists_ne_map_eq_of_card_lt_of_maps_to (s := Finset.range (v.length + 1)) (t := Finset.range v.length)
      (f := fun k => it v k i) (by simp) (by
        intro k _
        simpa using it_lt hp hi k)
    rw [Finset.mem_range] at ha hb
    rcases Nat.lt_or_gt_of_ne hne with c | c
    · exact ⟨a, b, c, by omega, h⟩
    · exact ⟨b, a, c, by omega, h.symm⟩
  obtain ⟨a, b, h2, h3, h4⟩ := h1
  have h5 : it v (b - a) i = i := by
    rw [show b = a + (b - a) by omega, it_add] at h4
    exact (it_cancel hp hi (it_lt hp hi _) a h4).symm
  obtain ⟨L, h6, h7⟩ := exists_least (P := fun m => 0 < m ∧ it v m i = i) ⟨b - a, by omega, h5⟩
  refine ⟨L, h6.1, ?_, h6.2, fun m h8 h9 h10 => h7 m h9 ⟨h8, h10⟩⟩
  by_cases c : b - a < L
  · exact absurd ⟨by omega, h5⟩ (h7 _ c)
  · omega

namespace IsCyc

variable {v : List Nat} {i L : Nat} (h : IsCyc v i L)
include h

theorem ret_mul (k : Nat) : it v (k * L) i = i := by
  induction k with
  | zero => rw [Nat.zero_mul]; rfl
  | succ k ih => rw [Nat.succ_mul, it_add, h.ret, ih]

theorem mod (a : Nat) : it v a i = it v (a % L) i := by
  conv => lhs; rw [← Nat.mod_add_div a L, it_add, Nat.mul_comm, h.ret_mul]

theorem back (a : Nat) : ∃ c, it v c (it v a i) = i := by
  have := Nat.mod_lt a h.pos
  refine ⟨L - a % L, ?_⟩
  rw [h.mod a, ← it_add, show L - a % L + a % L = L by omega, h.ret]

/-- The other elements of the cycle have the same period. -/
theorem move (hp : IsPerm v) (hi : i < v.length) (a : Nat) : IsCyc v (it v a i) L := by
  refine ⟨h.pos, h.le, ?_, fun m h1 h2 h3 => ?_⟩
  · rw [← it_add, Nat.add_comm, it_add, h.ret]
  · rw [← it_add, Nat.add_comm, it_add] at h3
    exact h.min m h1 h2 (it_cancel hp (it_lt hp hi _) hi a h3)

theorem inj (hp : IsPerm v) (hi : i < v.length) {a b : Nat} (ha : a < L) (hb : b < L) (e : it v a i = it v b i) : a = b := by
  have key : ∀ a b, a < L → b < L → a < b → it v a i ≠ it v b i := by
    intro a b _ hb hab e
    rw [show b = a + (b - a) by omega, it_add] at e
    exact h.min (b - a) (by omega) (by omega) (it_cancel hp hi (it_lt hp hi _) a e).symm
  rcases Nat.lt_trichotomy a b with c | c | c
  · exact absurd e (key a b ha hb c)
  · exact c
  · exact absurd e.symm (key b a hb ha c)

end IsCyc

/-! ### Traces -/

/-- The marks set by the loop along the cycle of `i` from step `t+1` on, `k` steps. -/
def tr (v : List Nat) (ts i : Nat) : Nat → Nat → List (Nat × Nat)
  | 0, _ => []
  | k + 1, t => (if (t + 1) % ts = 0 then [(it v (t + 1) i, it v (t - t % ts) i)] else []) ++ tr v ts i k (t + 1)

/-- All marks of a cycle. -/
def cyc (v : List Nat) (ts i L : Nat) : List (Nat × Nat) :=
  tr v ts i (L - 1) 0 ++ if L - 1 > ts then [(i, it v (L - 1 - (L - 1) % ts) i)] else []

/-- `done` after visiting steps `t+1, …, t+k`. -/
def visit (v : List Nat) (i : Nat) : Nat → Nat → List Bool → List Bool
  | 0, _, done => done
  | k + 1, t, done => visit v i k (t + 1) (done.set (it v (t + 1) i) true)

theorem visit_length (v : List Nat) (i : Nat) : ∀ k t (done : List Bool), (visit v i k t done).length = done.length
  | 0, _, _ => rfl
  | k + 1, t, done => by rw [visit, visit_length]; simp

theorem visit_get (v : List Nat) (i : Nat) : ∀ k t (done : List Bool) (x : Nat), x < done.length →
    ((visit v i k t done)[x]? = some true ↔ done[x]? = some true ∨ ∃ u, t < u ∧ u ≤ t + k ∧ x = it v u i)
  | 0, t, done, x, hx => by
    rw [visit]
    constructor
    · exact .inl
    · rintro (h | ⟨u, h1, h2, _⟩)
      · exact h
      · omega
  | k + 1, t, done, x, hx => by
    rw [visit, visit_get v i k (t + 1) _ x (by simpa using hx), List.getElem?_set]
    constructor
    · rintro (h | ⟨u, h1, h2, h3⟩)
      · by_cases c : it v (t + 1) i = x
        · exact .inr ⟨t + 1, by omega, by omega, c.symm⟩
        · rw [if_neg c] at h; exact .inl h
      · exact .inr ⟨u, by omega, by omega, h3⟩
    · rintro (h | ⟨u, h1, h2, h3⟩)
      · left
        by_cases c : it v (t + 1) i = x
        · rw [if_pos c, if_pos (by omega)]
        · rw [if_neg c]; exact h
      · by_cases c : u = t + 1
        · subst c
          left
          rw [if_pos h3.symm, if_pos (by omega)]
        · exact .inr ⟨u, by omega, by omega, h3⟩

/-- Executing a list of marks. -/
def run {σ : Type} (mark : σ → Nat → Nat → Option σ) : List (Nat × Nat) → σ → Option σ
  | [], s => some s
  | p :: l, s => do run mark l (← mark s p.1 p.2)

theorem run_append {σ : Type} (mark : σ → Nat → Nat → Option σ) (l l' : List (Nat × Nat)) (s : σ) :
    run mark (l ++ l') s = (run mark l s).bind (run mark l') := by
  induction l generalizing s with
  | nil => rfl
  | cons p l ih =>
    rw [List.cons_append, run, run]
    cases mark s p.1 p.2 with
    | none => rfl
    | some s' => exact ih s'

theorem mod_step {ts t : Nat} : ts = t % ts + 1 ↔ (t + 1) % ts = 0 := by
  rcases Nat.eq_zero_or_pos ts with rfl | h
  · simp
  · have := Nat.mod_lt t h
    rw [Nat.add_mod]
    rcases Nat.lt_or_ge 1 ts with h1 | h1
    · rw [Nat.mod_eq_of_lt h1]
      constructor
      · intro e
        rw [← e, Nat.mod_self]
      · intro e
        by_cases c : t % ts + 1 < ts
        · rw [Nat.mod_eq_of_lt c] at e; omega
        · omega
    · obtain rfl : ts = 1 := by omega
      simp [Nat.mod_one]

theorem mod_succ {ts t : Nat} (h : ¬(t + 1) % ts = 0) : (t + 1) % ts = t % ts + 1 := by
  rcases Nat.eq_zero_or_pos ts with rfl | h0
  · simp
  · have h1 := Nat.mod_lt t h0
    have h2 : ts ≠ t % ts + 1 := fun e => h (mod_step.1 e)
    rw [Nat.add_mod]
    rcases Nat.lt_or_ge 1 ts with h3 | h3
    · rw [Nat.mod_eq_of_lt h3, Nat.mod_eq_of_lt (by omega)]
    · omega

theorem walk_eq {σ : Type} {v : List Nat} (hp : IsPerm v) {i L : Nat} (hi : i < v.length) (hc : IsCyc v i L) (ts : Nat) (mark : σ → Nat → Nat → Option σ) :
    ∀ (k t fuel : Nat) (done : List Bool) (s : σ), t + k + 1 = L → k ≤ fuel → done.length = v.length →
      walk v ts i mark fuel (it v t i) (it v (t - t % ts) i) (t % ts) t done s =
        (run mark (tr v ts i k t) s).map fun s' => (visit v i k t done, s', it v (L - 1 - (L - 1) % ts) i, L - 1)
  | 0, t, fuel, done, s, ht, hf, hd => by
    unfold walk
    rw [v_get (it_lt hp hi _), sbind, show f v (it v t i) = i by
      show it v (t + 1) i = i
      rw [show t + 1 = L by omega, hc.ret], if_pos rfl]
    rw [show L - 1 = t by omega]
    rfl
  | k + 1, t, fuel, done, s, ht, hf, hd => by
    unfold walk
    rw [v_get (it_lt hp hi _), sbind, show f v (it v t i) = it v (t + 1) i from rfl, if_neg (hc.min (t + 1) (by omega) (by omega))]
    obtain ⟨fuel, rfl⟩ : ∃ g, fuel = g + 1 := ⟨fuel - 1, by omega⟩
    dsimp only
    rw [setList_of_lt (by rw [hd]; exact it_lt hp hi _), sbind]
    by_cases c : (t + 1) % ts = 0
    · rw [if_pos (mod_step.2 c), tr, if_pos c, run_append]
      show (mark s _ _ >>= fun s' => _) = _
      rw [show run mark [(it v (t + 1) i, it v (t - t % ts) i)] s = mark s (it v (t + 1) i) (it v (t - t % ts) i) by
        rw [run]
        cases mark s (it v (t + 1) i) (it v (t - t % ts) i) <;> rfl]
      cases hm : mark s (it v (t + 1) i) (it v (t - t % ts) i) with
      | none => rfl
      | some s' =>
        have := walk_eq hp hi hc ts mark k (t + 1) fuel (done.set (it v (t + 1) i) true) s' (by omega) (by omega) (by simpa using hd)
        rw [c, Nat.sub_zero] at this
        exact this
    · rw [if_neg (fun e => c (mod_step.1 e)), tr, if_neg c, List.nil_append]
      have hs := mod_succ c
      have := walk_eq hp hi hc ts mark k (t + 1) fuel (done.set (it v (t + 1) i) true) s (by omega) (by omega) (by simpa using hd)
      rw [hs, show t + 1 - (t % ts + 1) = t - t % ts by omega] at this
      exact this

theorem cycle_eq {σ : Type} {v : List Nat} (hp : IsPerm v) {i L : Nat} (hi : i < v.length) (hc : IsCyc v i L) (ts : Nat) (mark : σ → Nat → Nat → Option σ)
    {done : List Bool} (hd : done.length = v.length) (hn : done[i]? = some false) (s : σ) :
    cycle v ts mark i done s = (run mark (cyc v ts i L) s).map fun s' => (visit v i (L - 1) 0 (done.set i true), s') := by
  unfold cycle
  rw [hn, sbind, if_neg (by simp), setList_of_lt (by omega), sbind]
  have hp1 := hc.pos
  have := walk_eq hp hi hc ts mark (L - 1) 0 v.length (done.set i true) s (by omega) (by have := hc.le; omega) (by simpa using hd)
  rw [Nat.zero_mod, Nat.sub_zero] at this
  rw [show walk v ts i mark v.length i i 0 0 (done.set i true) s = _ from this]
  unfold cyc
  rw [run_append]
  cases run mark (tr v ts i (L - 1) 0) s with
  | none => rfl
  | some s1 =>
    rw [Option.map_some, sbind, Option.bind_some]
    dsimp only
    by_cases c : L - 1 > ts
    · rw [if_pos c, if_pos c, run]
      cases mark s1 i (it v (L - 1 - (L - 1) % ts) i) <;> rfl
    · rw [if_neg c, if_neg c]; rfl

/-- `done` marks exactly the cycles of the leaders `P`. -/
structure Dn (v : List Nat) (done : List Bool) (P : List Nat) : Prop where
  len : done.length = v.length
  iff : ∀ x, x < v.length → (done[x]? = some true ↔ ∃ i ∈ P, ∃ a, x = it v a i)
  lt : ∀ i ∈ P, i < v.length
  uniq : ∀ i ∈ P, ∀ i' ∈ P, ∀ a b, it v a i = it v b i' → i = i'

/-- The length of the cycle of `i`. -/
noncomputable def per (v : List Nat) (i : Nat) : Nat := open Classical in if h : ∃ L, IsCyc v i L then h.choose else 0

theorem per_cyc {v : List Nat} (hp : IsPerm v) {i : Nat} (hi : i < v.length) : IsCyc v i (per v i) := by
  unfold per
  rw [dif_pos (exists_cyc hp hi)]
  exact (exists_cyc hp hi).choose_spec

theorem pass_eq {v : List Nat} (hp : IsPerm v) (ts : Nat) : ∀ (k i : Nat) (done : List Bool) (P : List Nat), i + k = v.length → Dn v done P →
    (∀ x, x < i → done[x]? = some true) →
    ∃ Ls done', Dn v done' (P ++ Ls) ∧ (∀ x, x < v.length → done'[x]? = some true) ∧
      ∀ (σ : Type) (mark : σ → Nat → Nat → Option σ) (s : σ),
        pass v ts mark k i done s = (run mark (Ls.flatMap fun i => cyc v ts i (per v i)) s).map fun s' => (done', s')
  | 0, i, done, P, hk, hD, hx => ⟨[], done, by rw [List.append_nil]; exact hD, fun x h => hx x (by omega), fun σ mark s => rfl⟩
  | k + 1, i, done, P, hk, hD, hx => by
    have hi : i < v.length := by omega
    have hlen := hD.len
    cases hb : done[i]? with
    | none => rw [List.getElem?_eq_none_iff] at hb; omega
    | some b =>
      cases b with
      | true =>
        obtain ⟨Ls, done', h1, h2, h3⟩ := pass_eq hp ts k (i + 1) done P (by omega) hD (by
          intro x h
          by_cases c : x = i
          · rw [c]; exact hb
          · exact hx x (by omega))
        refine ⟨Ls, done', h1, h2, fun σ mark s => ?_⟩
        unfold pass cycle
        rw [hb, sbind, if_pos rfl, sbind]
        exact h3 σ mark s
      | false =>
        have hc := per_cyc hp hi
        have hpos := hc.pos
        have hiff : ∀ x, x < v.length → ((visit v i (per v i - 1) 0 (done.set i true))[x]? = some true ↔ (∃ i' ∈ P ++ [i], ∃ a, x = it v a i')) := by
          intro x hxl
          rw [visit_get _ _ _ _ _ _ (by simpa [hlen] using hxl), List.getElem?_set]
          constructor
          · rintro (h | ⟨u, h1, h2, h3⟩)
            · by_cases c : i = x
              · exact ⟨i, by simp, 0, c.symm⟩
              · rw [if_neg c, hD.iff x hxl] at h
                obtain ⟨i', h1, a, h2⟩ := h
                exact ⟨i', by simp [h1], a, h2⟩
            · exact ⟨i, by simp, u, h3⟩
          · rintro ⟨i', h1, a, h2⟩
            rw [List.mem_append, List.mem_singleton] at h1
            rcases h1 with h1 | rfl
            · left
              by_cases c : i = x
              · rw [if_pos c, if_pos (by omega)]
              · rw [if_neg c, hD.iff x hxl]; exact ⟨i', h1, a, h2⟩
            · rw [hc.mod] at h2
              by_cases c : a % per v i' = 0
              · left
                rw [c] at h2
                have h2 : x = i' := h2
                rw [if_pos h2.symm, if_pos (by omega)]
              · have := Nat.mod_lt a hpos
                exact .inr ⟨a % per v i', by omega, by omega, h2⟩
        have hnew : ∀ i' ∈ P, ∀ a b, it v a i ≠ it v b i' := by
          intro i' h1 a b e
          obtain ⟨c, h2⟩ := hc.back a
          rw [e, ← it_add] at h2
          have := (hD.iff i hi).2 ⟨i', h1, c + b, h2.symm⟩
          rw [hb] at this
          simp at this
        have hD' : Dn v (visit v i (per v i - 1) 0 (done.set i true)) (P ++ [i]) := by
          refine ⟨by rw [visit_length]; simpa using hlen, hiff, ?_, ?_⟩
          · intro i' h
            rw [List.mem_append, List.mem_singleton] at h
            rcases h with h | rfl
            · exact hD.lt _ h
            · exact hi
          · intro i1 h1 i2 h2 a b e
            rw [List.mem_append, List.mem_singleton] at h1 h2
            rcases h1 with h1 | rfl
            · rcases h2 with h2 | rfl
              · exact hD.uniq i1 h1 i2 h2 a b e
              · exact absurd e.symm (hnew i1 h1 b a)
            · rcases h2 with h2 | rfl
              · exact absurd e (hnew i2 h2 a b)
              · rfl
        obtain ⟨Ls, done', h1, h2, h3⟩ := pass_eq hp ts k (i + 1) _ (P ++ [i]) (by omega) hD' (by
          intro x h
          rw [hD'.iff x (by omega)]
          by_cases c : x = i
          · exact ⟨i, by simp, 0, c⟩
          · obtain ⟨i', h1, a, h2⟩ := (hD.iff x (by omega)).1 (hx x (by omega))
            exact ⟨i', by simp [h1], a, h2⟩)
        refine ⟨i :: Ls, done', by simpa using h1, h2, fun σ mark s => ?_⟩
        unfold pass
        rw [cycle_eq hp hi hc ts mark hlen hb, List.flatMap_cons, run_append]
        cases run mark (cyc v ts i (per v i)) s with
        | none => rfl
        | some s1 =>
          rw [Option.map_some, sbind, Option.bind_some]
          exact h3 σ mark s1

/-! ### The two passes -/

theorem tr_mem (v : List Nat) (ts i : Nat) : ∀ k t p, p ∈ tr v ts i k t ↔ ∃ u, t < u ∧ u ≤ t + k ∧ u % ts = 0 ∧ p = (it v u i, it v (u - ts) i)
  | 0, t, p => by
    rw [tr]
    constructor
    · intro h; simp at h
    · rintro ⟨u, h1, h2, -⟩; omega
  | k + 1, t, p => by
    rw [tr, List.mem_append, tr_mem v ts i k (t + 1) p]
    constructor
    · rintro (h | ⟨u, h1, h2, h3⟩)
      · by_cases c : (t + 1) % ts = 0
        · rw [if_pos c, List.mem_singleton] at h
          have := mod_step.2 c
          exact ⟨t + 1, by omega, by omega, c, by rw [h, show t + 1 - ts = t - t % ts by omega]⟩
        · rw [if_neg c] at h; simp at h
      · exact ⟨u, by omega, by omega, h3⟩
    · rintro ⟨u, h1, h2, h3, h4⟩
      by_cases c : u = t + 1
      · subst c
        left
        have := mod_step.2 h3
        rw [if_pos h3, List.mem_singleton, h4, show t + 1 - ts = t - t % ts by omega]
      · exact .inr ⟨u, by omega, by omega, h3, h4⟩

theorem cyc_mem {v : List Nat} {ts i L : Nat} (p : Nat × Nat) : p ∈ cyc v ts i L ↔
    (∃ u, 0 < u ∧ u < L ∧ u % ts = 0 ∧ p = (it v u i, it v (u - ts) i)) ∨ (ts < L - 1 ∧ p = (i, it v (L - 1 - (L - 1) % ts) i)) := by
  unfold cyc
  rw [List.mem_append, tr_mem]
  constructor
  · rintro (⟨u, h1, h2, h3⟩ | h)
    · exact .inl ⟨u, h1, by omega, h3⟩
    · by_cases c : L - 1 > ts
      · rw [if_pos c, List.mem_singleton] at h; exact .inr ⟨c, h⟩
      · rw [if_neg c] at h; simp at h
  · rintro (⟨u, h1, h2, h3⟩ | ⟨h1, h2⟩)
    · exact .inl ⟨u, h1, by omega, h3⟩
    · right
      rw [if_pos h1, List.mem_singleton]; exact h2

theorem run_mark1 {n : Nat} : ∀ (T : List (Nat × Nat)) (m : List Bool) (mx : Nat), m.length = n → mx < 2 ^ 64 → n ≤ 2 ^ 64 →
    (∀ p ∈ T, p.1 < n ∧ p.2 < n) → ∃ m' mx', run mark1 T (m, mx) = some (m', mx') ∧ m'.length = n ∧ mx' < 2 ^ 64 ∧ mx ≤ mx' ∧
      (∀ p ∈ T, p.2 ≤ mx') ∧ ∀ x, x < n → (m'[x]? = some true ↔ m[x]? = some true ∨ ∃ b, (x, b) ∈ T)
  | [], m, mx, hm, hx, hn, _ => ⟨m, mx, rfl, hm, hx, Nat.le_refl _, by simp, by simp⟩
  | (a, b) :: T, m, mx, hm, hx, hn, h => by
    have h0 := h (a, b) (by simp)
    obtain ⟨m', mx', h1, h2, h3, h4, h5, h6⟩ := run_mark1 T (m.set a true) (max mx b) (by simpa using hm) (by have := h0.2; simp only at this; omega) hn
      (fun p hp => h p (by simp [hp]))
    refine ⟨m', mx', ?_, h2, h3, by omega, ?_, ?_⟩
    · rw [run]
      unfold mark1
      rw [setList_of_lt (by rw [hm]; exact h0.1), sbind]
      exact h1
    · intro p hp
      rcases List.mem_cons.1 hp with rfl | hp
      · show b ≤ mx'
        omega
      · exact h5 p hp
    · intro x hxn
      rw [h6 x hxn, List.getElem?_set]
      constructor
      · rintro (h7 | ⟨c, h7⟩)
        · by_cases c : a = x
          · exact .inr ⟨b, by simp [c]⟩
          · rw [if_neg c] at h7; exact .inl h7
        · exact .inr ⟨c, by simp [h7]⟩
      · rintro (h7 | ⟨c, h7⟩)
        · left
          by_cases c : a = x
          · rw [if_pos c, if_pos (by omega)]
          · rw [if_neg c]; exact h7
        · rcases List.mem_cons.1 h7 with h8 | h8
          · left
            have : x = a := congrArg Prod.fst h8
            rw [if_pos this.symm, if_pos (by omega)]
          · exact .inr ⟨c, h8⟩

theorem rank_lt {m : List Bool} {x y : Nat} (hx : m[x]? = some true) (h : x < y) : rank m x < rank m y := by
  unfold rank
  exact countTrue_lt_of_true h (by rw [List.getD_eq_getElem?_getD, hx]; rfl)

theorem rank_inj {m : List Bool} {x y : Nat} (hx : m[x]? = some true) (hy : m[y]? = some true) (h : rank m x = rank m y) : x = y := by
  rcases Nat.lt_trichotomy x y with c | c | c
  · have := rank_lt hx c; omega
  · exact c
  · have := rank_lt hy c; omega

theorem run_mark2 {m : List Bool} {n : Nat} : ∀ (T : List (Nat × Nat)) (a : Arr), a.xs.length = rank m n →
    (∀ p ∈ T, p.1 < n ∧ m[p.1]? = some true ∧ p.2 < 2 ^ a.width) →
    ∃ a', run (mark2 m) T a = some a' ∧ ∀ r, (a'.get r = a.get r ∧ ∀ p ∈ T, rank m p.1 ≠ r) ∨ ∃ p ∈ T, rank m p.1 = r ∧ a'.get r = some p.2
  | [], a, _, _ => ⟨a, rfl, fun r => .inl ⟨rfl, by simp⟩⟩
  | (x, b) :: T, a, ha, h => by
    have h0 := h (x, b) (by simp)
    have hr := rank_lt h0.2.1 h0.1
    obtain ⟨a', h1, h2⟩ := run_mark2 (m := m) (n := n) T { a with xs := a.xs.set (rank m x) (b % 2 ^ a.width) } (by simpa using ha)
      (fun p hp => h p (by simp [hp]))
    refine ⟨a', ?_, fun r => ?_⟩
    · rw [run]
      unfold mark2
      rw [Arr.set_of_lt (by rw [ha]; exact hr), sbind]
      exact h1
    · rcases h2 r with ⟨h3, h4⟩ | ⟨p, h3, h4⟩
      · by_cases c : rank m x = r
        · right
          refine ⟨(x, b), by simp, c, ?_⟩
          rw [h3]
          show (a.xs.set (rank m x) (b % 2 ^ a.width))[r]? = some b
          rw [List.getElem?_set, if_pos c, if_pos (by rw [ha]; exact c ▸ hr), Nat.mod_eq_of_lt h0.2.2]
        · left
          refine ⟨?_, fun p hp => ?_⟩
          · rw [h3]
            show (a.xs.set (rank m x) (b % 2 ^ a.width))[r]? = a.xs[r]?
            rw [List.getElem?_set, if_neg c]
          · rcases List.mem_cons.1 hp with rfl | hp
            · exact c
            · exact h4 p hp
      · exact .inr ⟨p, by simp [h3], h4⟩

/-- What the constructor leaves behind: leaders `Ls`, one per cycle, and back pointers for the marks of every cycle. -/
structure Good (ts : Nat) (v : List Nat) (p : Ips) (Ls : List Nat) : Prop where
  vEq : p.v = v
  lt : ∀ i ∈ Ls, i < v.length
  uniq : ∀ i ∈ Ls, ∀ i' ∈ Ls, ∀ a b, it v a i = it v b i' → i = i'
  cover : ∀ x, x < v.length → ∃ i ∈ Ls, ∃ a, x = it v a i
  mlen : p.marked.length = v.length
  mark : ∀ x, x < v.length → (p.marked[x]? = some true ↔ ∃ b, (x, b) ∈ Ls.flatMap fun i => cyc v ts i (per v i))
  ptr : ∀ x, p.marked[x]? = some true → ∃ b, (x, b) ∈ (Ls.flatMap fun i => cyc v ts i (per v i)) ∧ p.back.get (rank p.marked x) = some b

theorem new_good {v : List Nat} (hp : IsPerm v) (hn : v.length ≤ 2 ^ 64) (ts : Nat) : ∃ p Ls, new ts v = some p ∧ Good ts v p Ls := by
  have hD : Dn v (List.replicate v.length false) [] := by
    refine ⟨by simp, fun x h => ?_, by simp, by simp⟩
    rw [List.getElem?_replicate, if_pos h]; simp
  obtain ⟨Ls, done', h1, h2, h3⟩ := pass_eq hp ts v.length 0 _ [] (by omega) hD (by intro x h; omega)
  rw [List.nil_append] at h1
  generalize hT : (Ls.flatMap fun i => cyc v ts i (per v i)) = T at h3
  have hTlt : ∀ p ∈ T, p.1 < v.length ∧ p.2 < v.length := by
    intro p h
    rw [← hT, List.mem_flatMap] at h
    obtain ⟨i, h4, h5⟩ := h
    have hi := h1.lt i h4
    rw [cyc_mem] at h5
    rcases h5 with ⟨u, -, -, -, rfl⟩ | ⟨-, rfl⟩
    · exact ⟨it_lt hp hi _, it_lt hp hi _⟩
    · exact ⟨hi, it_lt hp hi _⟩
  obtain ⟨m, mx, g1, g2, g3, g4, g5, g6⟩ := run_mark1 (n := v.length) T (List.replicate v.length false) 0 (by simp) (by omega) hn hTlt
  have gm : ∀ x, x < v.length → (m[x]? = some true ↔ ∃ b, (x, b) ∈ T) := by
    intro x hx
    rw [g6 x hx, List.getElem?_replicate, if_pos hx]; simp
  have hw : IntVec.clampWidth (Nat.log2 mx + 1) = Nat.log2 mx + 1 := by
    unfold IntVec.clampWidth
    rw [if_pos]
    refine ⟨by omega, ?_⟩
    rcases Nat.eq_zero_or_pos mx with h | h
    · rw [h]; decide
    · have := (Nat.log2_lt (by omega)).2 g3
      omega
  have hfit : ∀ b, b ≤ mx → b < 2 ^ (Nat.log2 mx + 1) := fun b hb => Nat.lt_of_le_of_lt hb Nat.lt_log2_self
  obtain ⟨a', k1, k2⟩ := run_mark2 (m := m) (n := v.length) T (Arr.new (rank m v.length) 0 (Nat.log2 mx + 1)) (by simp [Arr.new]) (by
    intro p h
    have := hTlt p h
    refine ⟨this.1, (gm _ this.1).2 ⟨p.2, h⟩, ?_⟩
    show p.2 < 2 ^ IntVec.clampWidth (Nat.log2 mx + 1)
    rw [hw]
    exact hfit _ (g5 p h))
  refine ⟨⟨v, a', m⟩, Ls, ?_, ⟨rfl, h1.lt, h1.uniq, fun x hx => (h1.iff x hx).1 (h2 x hx), g2, by rw [hT]; exact gm, ?_⟩⟩
  · unfold new
    dsimp only
    rw [h3, g1, Option.map_some, sbind]
    dsimp only
    rw [hi_eq, sbind, show (BitVec.ofNat 64 mx).toNat = mx by rw [BitVec.toNat_ofNat, Nat.mod_eq_of_lt g3], h3, k1]
    rfl
  · intro x hx
    have hxl : x < v.length := by
      rw [← g2]
      exact (List.getElem?_eq_some_iff.1 hx).1
    obtain ⟨b, hb⟩ := (gm x hxl).1 hx
    rcases k2 (rank m x) with ⟨-, h4⟩ | ⟨p, h4, h5, h6⟩
    · exact absurd rfl (h4 _ hb)
    · have hpl := hTlt p h4
      have : p.1 = x := rank_inj ((gm _ hpl.1).2 ⟨p.2, h4⟩) hx h5
      refine ⟨p.2, ?_, h6⟩
      rw [hT, ← this]
      exact h4

/-! ### Queries -/

theorem follow_eq {v : List Nat} (hp : IsPerm v) {q L : Nat} (hq : q < v.length) (hc : IsCyc v q L) :
    ∀ (k t fuel : Nat), t + k + 1 = L → k ≤ fuel → follow v q fuel (it v t q) = some (it v (L - 1) q)
  | 0, t, fuel, h1, h2 => by
    unfold follow
    rw [v_get (it_lt hp hq _), sbind, show f v (it v t q) = q by
      show it v (t + 1) q = q
      rw [show t + 1 = L by omega, hc.ret], if_pos rfl, show L - 1 = t by omega]
  | k + 1, t, fuel, h1, h2 => by
    unfold follow
    rw [v_get (it_lt hp hq _), sbind, show f v (it v t q) = it v (t + 1) q from rfl, if_neg (hc.min (t + 1) (by omega) (by omega))]
    obtain ⟨fuel, rfl⟩ : ∃ g, fuel = g + 1 := ⟨fuel - 1, by omega⟩
    exact follow_eq hp hq hc k (t + 1) fuel (by omega) (by omega)

theorem search_eq {v : List Nat} (hp : IsPerm v) {p : Ips} (hv : p.v = v) (hml : p.marked.length = v.length) {q L : Nat} (hq : q < v.length) (hc : IsCyc v q L) :
    ∀ (k t fuel : Nat), t + k + 1 = L →
      (∀ u, t ≤ u → u < L - 1 → p.marked[it v u q]? = some true → (∀ u', t ≤ u' → u' < u → p.marked[it v u' q]? ≠ some true) →
        ∃ w, w < L ∧ p.back.get (rank p.marked (it v u q)) = some (it v w q) ∧ u + 1 + (L - 1 - w) ≤ fuel + t) →
      ((∀ u, t ≤ u → u < L - 1 → p.marked[it v u q]? ≠ some true) → L - 1 ≤ fuel + t) →
      search p q fuel (it v t q) = some (it v (L - 1) q)
  | 0, t, fuel, h1, h2, h3 => by
    unfold search
    rw [hv, v_get (it_lt hp hq _), sbind, show f v (it v t q) = q by
      show it v (t + 1) q = q
      rw [show t + 1 = L by omega, hc.ret], if_pos rfl, show L - 1 = t by omega]
  | k + 1, t, fuel, h1, h2, h3 => by
    unfold search
    rw [hv, v_get (it_lt hp hq _), sbind, show f v (it v t q) = it v (t + 1) q from rfl, if_neg (hc.min (t + 1) (by omega) (by omega))]
    cases fuel with
    | zero =>
      exfalso
      by_cases c : ∃ u, t ≤ u ∧ u < L - 1 ∧ p.marked[it v u q]? = some true
      · obtain ⟨u, ⟨g1, g2, g3⟩, g4⟩ := exists_least c
        obtain ⟨w, -, -, g5⟩ := h2 u g1 g2 g3 (fun u' g6 g7 g8 => g4 u' g7 ⟨g6, by omega, g8⟩)
        omega
      · have := h3 (fun u g1 g2 g3 => c ⟨u, g1, g2, g3⟩)
        omega
    | succ fuel =>
      dsimp only
      cases hm : p.marked[it v t q]? with
      | none =>
        have := it_lt hp hq t
        rw [List.getElem?_eq_none_iff] at hm; omega
      | some b =>
        rw [sbind]
        cases b with
        | true =>
          rw [if_pos rfl]
          obtain ⟨w, g1, g2, g3⟩ := h2 t (by omega) (by omega) hm (by intro u' _ _; omega)
          rw [g2, sbind]
          exact follow_eq hp hq hc (L - 1 - w) w fuel (by omega) (by omega)
        | false =>
          rw [if_neg (by simp)]
          apply search_eq hp hv hml hq hc k (t + 1) fuel (by omega)
          · intro u g1 g2 g3 g4
            obtain ⟨w, g5, g6, g7⟩ := h2 u (by omega) g2 g3 (by
              intro u' g5 g6
              by_cases c : u' = t
              · rw [c, hm]; simp
              · exact g4 u' (by omega) g6)
            exact ⟨w, g5, g6, by omega⟩
          · intro g
            have := h3 (by
              intro u g1 g2
              by_cases c : u = t
              · rw [c, hm]; simp
              · exact g u (by omega) g2)
            omega

section
variable {ts : Nat} {v : List Nat} {p : Ips} {Ls : List Nat} (hp : IsPerm v) (hg : Good ts v p Ls)
include hp hg

/-- Which steps of the cycle of a leader are marked. -/
theorem mark_iff {i : Nat} (hi : i ∈ Ls) {c : Nat} (hc : c < per v i) :
    p.marked[it v c i]? = some true ↔ (0 < c ∧ c % ts = 0) ∨ (c = 0 ∧ ts < per v i - 1) := by
  have hlt := hg.lt i hi
  have hcy := per_cyc hp hlt
  rw [hg.mark _ (it_lt hp hlt _)]
  constructor
  · rintro ⟨b, h⟩
    rw [List.mem_flatMap] at h
    obtain ⟨i', h1, h2⟩ := h
    rw [cyc_mem] at h2
    rcases h2 with ⟨u, h3, h4, h5, h6⟩ | ⟨h3, h4⟩
    · have h7 : it v c i = it v u i' := congrArg Prod.fst h6
      obtain rfl := hg.uniq i hi i' h1 _ _ h7
      obtain rfl := hcy.inj hp hlt hc h4 h7
      exact .inl ⟨h3, h5⟩
    · have h7 : it v c i = it v 0 i' := congrArg Prod.fst h4
      obtain rfl := hg.uniq i hi i' h1 _ _ h7
      exact .inr ⟨hcy.inj hp hlt hc hcy.pos h7, h3⟩
  · rintro (⟨h1, h2⟩ | ⟨rfl, h2⟩)
    · exact ⟨it v (c - ts) i, List.mem_flatMap.2 ⟨i, hi, (cyc_mem _).2 (.inl ⟨c, h1, hc, h2, rfl⟩)⟩⟩
    · exact ⟨_, List.mem_flatMap.2 ⟨i, hi, (cyc_mem _).2 (.inr ⟨h2, rfl⟩)⟩⟩

/-- The back pointer of a marked step. -/
theorem ptr_eq {i : Nat} (hi : i ∈ Ls) {c : Nat} (hc : c < per v i) (hm : p.marked[it v c i]? = some true) :
    p.back.get (rank p.marked (it v c i)) = some (it v (if c = 0 then per v i - 1 - (per v i - 1) % ts else c - ts) i) := by
  have hlt := hg.lt i hi
  have hcy := per_cyc hp hlt
  obtain ⟨b, h, hb⟩ := hg.ptr _ hm
  rw [hb]
  rw [List.mem_flatMap] at h
  obtain ⟨i', h1, h2⟩ := h
  rw [cyc_mem] at h2
  rcases h2 with ⟨u, h3, h4, h5, h6⟩ | ⟨h3, h4⟩
  · have h7 : it v c i = it v u i' := congrArg Prod.fst h6
    obtain rfl := hg.uniq i hi i' h1 _ _ h7
    obtain rfl := hcy.inj hp hlt hc h4 h7
    rw [if_neg (by omega), show b = it v (c - ts) i from congrArg Prod.snd h6]
  · have h7 : it v c i = it v 0 i' := congrArg Prod.fst h4
    obtain rfl := hg.uniq i hi i' h1 _ _ h7
    obtain rfl := hcy.inj hp hlt hc hcy.pos h7
    rw [if_pos rfl, show b = _ from congrArg Prod.snd h4]

/-- The number of steps of a query, and its answer. -/
theorem get_eq {q fuel : Nat} (hq : q < v.length) (hf : 2 * v.length ≤ fuel ∨ 0 < ts ∧ fuel = ts) : ∃ j, get p fuel q = some j ∧ v[j]? = some q := by
  obtain ⟨i, hi, a, rfl⟩ := hg.cover q hq
  have hlt := hg.lt i hi
  have hcy := per_cyc hp hlt
  rw [hcy.mod a] at hq ⊢
  have ha := Nat.mod_lt a hcy.pos
  revert ha hq
  generalize a % per v i = a
  intro hq ha
  have hcq := hcy.move hp hlt a
  have hL := hcy.pos
  have hLn := hcy.le
  have hmi := @mark_iff ts v p Ls hp hg i hi
  have hpe := @ptr_eq ts v p Ls hp hg i hi
  generalize hLd : per v i = L at *
  refine ⟨it v (L - 1) (it v a i), ?_, ?_⟩
  swap
  · rw [v_get (it_lt hp hq _)]
    show some (it v (L - 1 + 1) (it v a i)) = _
    rw [show L - 1 + 1 = L by omega, hcq.ret]
  -- the step `c` reached after `u` steps from `a`
  have e1 : ∀ u, a + u < L → it v u (it v a i) = it v (a + u) i := by
    intro u _
    rw [← it_add, Nat.add_comm]
  have e2 : ∀ u, L ≤ a + u → it v u (it v a i) = it v (a + u - L) i := by
    intro u h
    rw [← it_add, show u + a = (a + u - L) + L by omega, it_add, hcy.ret]
  -- converting a pointer into a number of steps from `a`
  have e3 : ∀ b, b < L → ∃ w, w < L ∧ it v b i = it v w (it v a i) ∧ ((a ≤ b → w = b - a) ∧ (b < a → w = b + L - a)) := by
    intro b hb
    by_cases c : a ≤ b
    · exact ⟨b - a, by omega, by rw [e1 _ (by omega), show a + (b - a) = b by omega], fun _ => rfl, fun _ => by omega⟩
    · exact ⟨b + L - a, by omega, by rw [e2 _ (by omega), show a + (b + L - a) - L = b by omega], fun _ => by omega, fun _ => rfl⟩
  have hgen := search_eq hp hg.vEq hg.mlen hq hcq (L - 1) 0 fuel (by omega)
  apply hgen
  · intro u _ hu hm hfirst
    by_cases hau : a + u < L
    · rw [e1 u hau] at hm ⊢
      have hm' := (hmi hau).1 hm
      have hptr := hpe hau hm
      rcases hm' with ⟨h1, h2⟩ | ⟨h1, h2⟩
      · rw [if_neg (by omega)] at hptr
        obtain ⟨w, w1, w2, w3, w4⟩ := e3 (a + u - ts) (by omega)
        refine ⟨w, w1, by rw [hptr, w2], ?_⟩
        rcases hf with hf | ⟨h0, rfl⟩
        · omega
        · have hge : fuel ≤ a + u := by
            by_cases c : a + u < fuel
            · rw [Nat.mod_eq_of_lt c] at h2; omega
            · omega
          by_cases ca : a = 0
          · have h3 := hfirst 0 (by omega) (by omega)
            rw [e1 0 (by omega)] at h3
            have h4 : ¬(fuel < L - 1) := fun h => h3 ((hmi (by omega)).2 (.inr ⟨by omega, h⟩))
            omega
          · have h5 : a + u - fuel < a := by
              by_cases c : a + u - fuel < a
              · exact c
              · exfalso
                apply hfirst (u - fuel) (by omega) (by omega)
                rw [e1 _ (by omega)]
                exact (hmi (by omega)).2 (.inl ⟨by omega, by rw [show a + (u - fuel) = a + u - fuel by omega, ← Nat.mod_eq_sub_mod hge]; exact h2⟩)
            have := w4 h5
            omega
      · rw [if_pos h1] at hptr
        have hM := Nat.mod_le (L - 1) ts
        obtain ⟨w, w1, w2, w3, w4⟩ := e3 (L - 1 - (L - 1) % ts) (by omega)
        refine ⟨w, w1, by rw [hptr, w2], ?_⟩
        rcases hf with hf | ⟨h0, rfl⟩
        · omega
        · have := w3 (by omega)
          have := Nat.mod_lt (L - 1) h0
          omega
    · rw [e2 u (by omega)] at hm ⊢
      have hcl : a + u - L < L := by omega
      have hm' := (hmi hcl).1 hm
      have hptr := hpe hcl hm
      have hcase : (2 * v.length ≤ fuel ∨ 0 < ts ∧ fuel = ts ∧ a + u = L) := by
        rcases hf with hf | ⟨h0, hf⟩
        · exact .inl hf
        · refine .inr ⟨h0, hf, ?_⟩
          rcases hm' with ⟨h1, h2⟩ | ⟨h1, h2⟩
          · exfalso
            have h3 := hfirst (L - a) (by omega) (by omega)
            rw [e2 _ (by omega)] at h3
            have h4 : ¬(ts < L - 1) := fun h => h3 ((hmi (by omega)).2 (.inr ⟨by omega, h⟩))
            rw [Nat.mod_eq_of_lt (by omega)] at h2
            omega
          · omega
      rcases hcase with hf | ⟨h0, rfl, h1⟩
      · have hb : (if a + u - L = 0 then L - 1 - (L - 1) % ts else a + u - L - ts) < L := by split <;> omega
        obtain ⟨w, w1, w2, -⟩ := e3 _ hb
        exact ⟨w, w1, by rw [hptr, w2], by omega⟩
      · rw [if_pos (by omega)] at hptr
        have hM := Nat.mod_le (L - 1) fuel
        have hM2 := Nat.mod_lt (L - 1) h0
        obtain ⟨w, w1, w2, w3, w4⟩ := e3 (L - 1 - (L - 1) % fuel) (by omega)
        refine ⟨w, w1, by rw [hptr, w2], ?_⟩
        have h5 : L - 1 - (L - 1) % fuel < a := by
          by_cases c : L - 1 - (L - 1) % fuel < a
          · exact c
          · exfalso
            apply hfirst (L - 1 - (L - 1) % fuel - a) (by omega) (by omega)
            rw [e1 _ (by omega)]
            refine (hmi (by omega)).2 (.inl ⟨by omega, ?_⟩)
            rw [show a + (L - 1 - (L - 1) % fuel - a) = L - 1 - (L - 1) % fuel by omega]
            have := Nat.mod_add_div (L - 1) fuel
            rw [show L - 1 - (L - 1) % fuel = fuel * ((L - 1) / fuel) by omega, Nat.mul_mod_right]
        have := w4 h5
        omega
  · intro hno
    rcases hf with hf | ⟨h0, rfl⟩
    · omega
    · by_cases hts : fuel < L - 1
      · exfalso
        by_cases ca : a = 0
        · apply hno 0 (by omega) (by omega)
          rw [e1 _ (by omega)]
          exact (hmi (by omega)).2 (.inr ⟨by omega, hts⟩)
        · by_cases cb : a = 1
          · apply hno (fuel - 1) (by omega) (by omega)
            rw [e1 _ (by omega)]
            exact (hmi (by omega)).2 (.inl ⟨by omega, by rw [show a + (fuel - 1) = fuel by omega, Nat.mod_self]⟩)
          · apply hno (L - a) (by omega) (by omega)
            rw [e2 _ (by omega)]
            exact (hmi (by omega)).2 (.inr ⟨by omega, hts⟩)
      · omega

end

end Sdsl.InvPerm
