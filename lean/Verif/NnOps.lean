/-
  `nn_dict_dynamic`: assignment, `next` and `prev` against the set of members.
-/
import Verif.NnLemmas

namespace Sdsl.Nn

open Bits Spec

theorem up_pos (l j : Nat) : (V (l + 1) + j - 1) / 64 = V l + j / 64 ∧ (V (l + 1) + j - 1) % 64 = j % 64 := by
  rw [V_succ]; omega

theorem q_up (idx k : Nat) : idx / 64 ^ (k + 1) = idx / 64 ^ k / 64 := by
  rw [Nat.pow_succ, ← Nat.div_div_eq_div_mul]

theorem and_one_ne {w : Word} {k : Nat} : w >>> k &&& 1#64 ≠ 0#64 ↔ w.getLsbD k = true := by
  have h : (w >>> k) &&& 1#64 = if w.getLsbD k then 1#64 else 0#64 := by
    apply BitVec.eq_of_getLsbD_eq
    intro i hi
    rw [BitVec.getLsbD_and, BitVec.getLsbD_ushiftRight, BitVec.getLsbD_one]
    by_cases c : i = 0
    · subst c
      cases w.getLsbD k <;> simp_all
    · cases w.getLsbD k <;> simp [c]
  rw [h]
  cases w.getLsbD k <;> simp

theorem node_idx {n d l idx : Nat} (hl : l ≤ d) (hi : idx < n) : idx / 64 ^ (d - l) / 64 < ck n (d + 1 - l) := by
  have := ck_lt hi (d - l + 1)
  rwa [q_up, show d - l + 1 = d + 1 - l by omega] at this

theorem Occ.add {S : Nat → Prop} {idx k q : Nat} : Occ (fun i => S i ∨ i = idx) k q ↔ Occ S k q ∨ q = idx / 64 ^ k := by
  constructor
  · rintro ⟨i, h | rfl, rfl⟩
    · exact .inl ⟨i, h, rfl⟩
    · exact .inr rfl
  · rintro (⟨i, h, rfl⟩ | rfl)
    · exact ⟨i, .inl h, rfl⟩
    · exact ⟨idx, .inr rfl, rfl⟩

/-- If the block of `idx` at height `k` is occupied, adding `idx` changes nothing at this height and above. -/
theorem Lv.add_same {s : Nn} {n d : Nat} {S : Nat → Prop} {idx l l' : Nat} (hL : Lv s n d S l') (hl : l ≤ d) (hle : l' ≤ l) (ho : Occ S (d - l) (idx / 64 ^ (d - l))) :
    Lv s n d (fun i => S i ∨ i = idx) l' := by
  intro q hq
  rw [hL q hq, Occ.add]
  constructor
  · exact .inl
  · rintro (h | rfl)
    · exact h
    · have := ho.up (l - l')
      rw [show d - l + (l - l') = d - l' by omega, Nat.div_div_eq_div_mul, ← Nat.pow_add, show d - l + (l - l') = d - l' by omega] at this
      exact this

theorem setLoop_eq {n d idx : Nat} (hi : idx < n) {S : Nat → Prop} : ∀ (l : Nat) (s : Nn), Geo s n d → l ≤ d →
    (∀ l', l' ≤ l → Lv s n d S l') → (∀ l', l < l' → l' ≤ d → Lv s n d (fun i => S i ∨ i = idx) l') →
    ∃ s', setLoop s l (V l + idx / 64 ^ (d - l) / 64) (idx / 64 ^ (d - l) % 64) = some s' ∧ Geo s' n d ∧ ∀ l', l' ≤ d → Lv s' n d (fun i => S i ∨ i = idx) l' := by
  intro l
  induction l using Nat.strongRecOn with
  | _ l ih =>
    intro s g hl h1 h2
    have hj := node_idx (idx := idx) hl hi
    have hlt := g.node_lt hl hj
    have hbit := (h1 l (Nat.le_refl _)).bit g hl hj (Nat.mod_lt (idx / 64 ^ (d - l)) (show 64 > 0 by decide))
    rw [Nat.div_add_mod] at hbit
    have hzero := (h1 l (Nat.le_refl _)).zero g hl hj
    have hbits := fun b hb => (h1 l (Nat.le_refl _)).bit g hl hj (b := b) hb
    unfold setLoop
    rw [g.real hl, sbind, ld_of_lt hlt, sbind, shr_of_lt (Nat.mod_lt _ (by decide)), sbind]
    generalize s.tree[R n d l + idx / 64 ^ (d - l) / 64]'hlt = w at *
    by_cases c : w.getLsbD (idx / 64 ^ (d - l) % 64) = true
    · rw [if_pos (and_one_ne.2 c)]
      refine ⟨s, rfl, g, fun l' hl' => ?_⟩
      by_cases c2 : l' ≤ l
      · exact (h1 l' c2).add_same hl c2 (hbit.1 c)
      · exact h2 l' (by omega) hl'
    rw [if_neg (fun h => c (and_one_ne.1 h)), shl_of_lt (Nat.mod_lt _ (by decide)), sbind, st_of_lt hlt, sbind]
    dsimp only
    obtain ⟨g', k1, k2⟩ := g.set_node hl hj (w ||| 1#64 <<< (idx / 64 ^ (d - l) % 64))
    have k2' := k2 S (fun i => S i ∨ i = idx) (h1 l (Nat.le_refl _)) (by
      intro q hq
      rw [Occ.add]
      constructor
      · exact .inl
      · rintro (h | rfl)
        · exact h
        · exact absurd rfl hq) (by
      intro b hb
      rw [BitVec.getLsbD_or, BitVec.getLsbD_shiftLeft, BitVec.getLsbD_one, Occ.add, ← hbits b hb]
      have := Nat.div_add_mod (idx / 64 ^ (d - l)) 64
      have := Nat.mod_lt (idx / 64 ^ (d - l)) (show 64 > 0 by decide)
      generalize idx / 64 ^ (d - l) = q at *
      by_cases e : b = q % 64
      · subst e
        simp [hb]
        omega
      · have : ¬ (64 * (q / 64) + b = q) := by omega
        simp [this]
        omega)
    have above : ∀ l', l ≤ l' → l' ≤ d → Lv { s with tree := s.tree.set (R n d l + idx / 64 ^ (d - l) / 64) (w ||| 1#64 <<< (idx / 64 ^ (d - l) % 64)) } n d (fun i => S i ∨ i = idx) l' := by
      intro l' hl' hl2
      by_cases e : l' = l
      · subst e; exact k2'
      · exact k1 l' e _ (h2 l' (by omega) hl2)
    by_cases c2 : w = 0#64
    · rw [if_pos c2]
      cases l with
      | zero => exact ⟨_, rfl, g', fun l' hl' => above l' (Nat.zero_le _) hl'⟩
      | succ l =>
        dsimp only
        obtain ⟨e1, e2⟩ := up_pos l (idx / 64 ^ (d - (l + 1)) / 64)
        have hq : idx / 64 ^ (d - l) = idx / 64 ^ (d - (l + 1)) / 64 := by rw [← q_up, show d - (l + 1) + 1 = d - l by omega]
        have key := ih l (by omega) _ g' (by omega) (fun l' hl' => k1 l' (by omega) _ (h1 l' (by omega))) (fun l' hl' hl2 => above l' (by omega) hl2)
        rw [hq] at key
        rw [e1, e2]; exact key
    · rw [if_neg c2]
      refine ⟨_, rfl, g', fun l' hl' => ?_⟩
      by_cases c3 : l ≤ l'
      · exact above l' c3 hl'
      · have ho : Occ S (d + 1 - l) (idx / 64 ^ (d - l) / 64) := Classical.byContradiction fun h => c2 (hzero.2 h)
        rw [← q_up, show d - l + 1 = d - (l - 1) by omega, show d + 1 - l = d - (l - 1) by omega] at ho
        exact (k1 l' (by omega) _ (h1 l' (by omega))).add_same (show l - 1 ≤ d by omega) (by omega) ho

theorem Occ.del {S : Nat → Prop} {idx k q : Nat} (h : Occ (fun i => S i ∧ i ≠ idx) k q) : Occ S k q := by
  obtain ⟨i, h1, h2⟩ := h; exact ⟨i, h1.1, h2⟩

theorem Occ.del_ne {S : Nat → Prop} {idx k q : Nat} (h : q ≠ idx / 64 ^ k) : Occ (fun i => S i ∧ i ≠ idx) k q ↔ Occ S k q := by
  refine ⟨Occ.del, ?_⟩
  rintro ⟨i, h1, rfl⟩
  exact ⟨i, ⟨h1, fun e => h (by rw [e])⟩, rfl⟩

theorem Lv.del_same {s : Nn} {n d : Nat} {S : Nat → Prop} {idx l l' : Nat} (hL : Lv s n d S l') (hl : l ≤ d) (hle : l' ≤ l)
    (ho : Occ (fun i => S i ∧ i ≠ idx) (d - l) (idx / 64 ^ (d - l))) : Lv s n d (fun i => S i ∧ i ≠ idx) l' := by
  intro q hq
  rw [hL q hq]
  by_cases c : q = idx / 64 ^ (d - l')
  · have := ho.up (l - l')
    rw [show d - l + (l - l') = d - l' by omega, Nat.div_div_eq_div_mul, ← Nat.pow_add, show d - l + (l - l') = d - l' by omega, ← c] at this
    exact ⟨fun _ => this, Occ.del⟩
  · exact (Occ.del_ne c).symm

theorem clearLoop_eq {n d idx : Nat} (hi : idx < n) {S : Nat → Prop} : ∀ (l : Nat) (s : Nn), Geo s n d → l ≤ d →
    ¬Occ (fun i => S i ∧ i ≠ idx) (d - l) (idx / 64 ^ (d - l)) →
    (∀ l', l' ≤ l → Lv s n d S l') → (∀ l', l < l' → l' ≤ d → Lv s n d (fun i => S i ∧ i ≠ idx) l') →
    ∃ s', clearLoop s l (V l + idx / 64 ^ (d - l) / 64) (idx / 64 ^ (d - l) % 64) = some s' ∧ Geo s' n d ∧ ∀ l', l' ≤ d → Lv s' n d (fun i => S i ∧ i ≠ idx) l' := by
  intro l
  induction l using Nat.strongRecOn with
  | _ l ih =>
    intro s g hl hno h1 h2
    have hj := node_idx (idx := idx) hl hi
    have hlt := g.node_lt hl hj
    have hbit := (h1 l (Nat.le_refl _)).bit g hl hj (Nat.mod_lt (idx / 64 ^ (d - l)) (show 64 > 0 by decide))
    rw [Nat.div_add_mod] at hbit
    have hbits := fun b hb => (h1 l (Nat.le_refl _)).bit g hl hj (b := b) hb
    unfold clearLoop
    rw [g.real hl, sbind, ld_of_lt hlt, sbind, shr_of_lt (Nat.mod_lt _ (by decide)), sbind]
    generalize s.tree[R n d l + idx / 64 ^ (d - l) / 64]'hlt = w at *
    by_cases c : w.getLsbD (idx / 64 ^ (d - l) % 64) = true
    case neg =>
      rw [if_pos (Classical.byContradiction fun h => c (and_one_ne.1 h))]
      refine ⟨s, rfl, g, fun l' hl' => ?_⟩
      by_cases c2 : l' ≤ l
      · have hS : ¬S idx := fun h => c (hbit.2 ⟨idx, h, rfl⟩)
        have : (fun i => S i ∧ i ≠ idx) = S := by
          funext i
          apply propext
          exact ⟨fun h => h.1, fun h => ⟨h, fun e => hS (e ▸ h)⟩⟩
        rw [this]; exact h1 l' c2
      · exact h2 l' (by omega) hl'
    rw [if_neg (and_one_ne.2 c), shl_of_lt (Nat.mod_lt _ (by decide)), sbind, st_of_lt hlt, sbind]
    dsimp only
    obtain ⟨g', k1, k2⟩ := g.set_node hl hj (w &&& ~~~(1#64 <<< (idx / 64 ^ (d - l) % 64)))
    have k2' := k2 S (fun i => S i ∧ i ≠ idx) (h1 l (Nat.le_refl _)) (by
      intro q hq
      exact (Occ.del_ne (fun e => hq (by rw [e]))).symm) (by
      intro b hb
      rw [BitVec.getLsbD_and, BitVec.getLsbD_not, BitVec.getLsbD_shiftLeft, BitVec.getLsbD_one]
      have := Nat.div_add_mod (idx / 64 ^ (d - l)) 64
      have := Nat.mod_lt (idx / 64 ^ (d - l)) (show 64 > 0 by decide)
      by_cases e : b = idx / 64 ^ (d - l) % 64
      · subst e
        rw [Nat.div_add_mod]
        simp [hno]
      · rw [Occ.del_ne (by omega), ← hbits b hb]
        simp [hb]
        omega)
    have above : ∀ l', l ≤ l' → l' ≤ d → Lv { s with tree := s.tree.set (R n d l + idx / 64 ^ (d - l) / 64) (w &&& ~~~(1#64 <<< (idx / 64 ^ (d - l) % 64))) } n d (fun i => S i ∧ i ≠ idx) l' := by
      intro l' hl' hl2
      by_cases e : l' = l
      · subst e; exact k2'
      · exact k1 l' e _ (h2 l' (by omega) hl2)
    have hzero := k2'.zero g' hl hj
    have hz : (s.tree.set (R n d l + idx / 64 ^ (d - l) / 64) (w &&& ~~~(1#64 <<< (idx / 64 ^ (d - l) % 64))))[R n d l + idx / 64 ^ (d - l) / 64]'(by simpa using hlt) = w &&& ~~~(1#64 <<< (idx / 64 ^ (d - l) % 64)) := by simp
    rw [hz] at hzero
    by_cases c2 : w &&& ~~~(1#64 <<< (idx / 64 ^ (d - l) % 64)) = 0#64
    · rw [if_pos c2]
      cases l with
      | zero => exact ⟨_, rfl, g', fun l' hl' => above l' (Nat.zero_le _) hl'⟩
      | succ l =>
        dsimp only
        obtain ⟨e1, e2⟩ := up_pos l (idx / 64 ^ (d - (l + 1)) / 64)
        have hq : idx / 64 ^ (d - l) = idx / 64 ^ (d - (l + 1)) / 64 := by rw [← q_up, show d - (l + 1) + 1 = d - l by omega]
        have hno' := hzero.1 c2
        rw [← q_up, show d - (l + 1) + 1 = d - l by omega, show d + 1 - (l + 1) = d - l by omega] at hno'
        have key := ih l (by omega) _ g' (by omega) hno' (fun l' hl' => k1 l' (by omega) _ (h1 l' (by omega))) (fun l' hl' hl2 => above l' (by omega) hl2)
        rw [hq] at key
        rw [e1, e2]; exact key
    · rw [if_neg c2]
      refine ⟨_, rfl, g', fun l' hl' => ?_⟩
      by_cases c3 : l ≤ l'
      · exact above l' c3 hl'
      · have ho : Occ (fun i => S i ∧ i ≠ idx) (d + 1 - l) (idx / 64 ^ (d - l) / 64) := Classical.byContradiction fun h => c2 (hzero.2 h)
        rw [← q_up, show d - l + 1 = d - (l - 1) by omega, show d + 1 - l = d - (l - 1) by omega] at ho
        exact (k1 l' (by omega) _ (h1 l' (by omega))).del_same (show l - 1 ≤ d by omega) (by omega) ho

theorem assign_inv {s : Nn} {n d : Nat} {S : Nat → Prop} (h : Inv s n d S) {idx : Nat} (hi : idx < n) (x : Bool) :
    ∃ s', assign s idx x = some s' ∧ Inv s' n d (fun i => if i = idx then x = true else S i) := by
  unfold assign
  rw [h.geo.depth, h.geo.beg]
  have hmem : ∀ i, (if i = idx then x = true else S i) → i < n := by
    intro i hh
    by_cases c : i = idx
    · omega
    · rw [if_neg c] at hh; exact h.mem i hh
  cases x with
  | true =>
    obtain ⟨s', h1, h2, h3⟩ := setLoop_eq hi (S := S) d s h.geo (Nat.le_refl _) (fun l' hl' => h.lv l' hl') (fun l' hl' hl2 => by omega)
    rw [Nat.sub_self, Nat.pow_zero, Nat.div_one] at h1
    refine ⟨s', h1, h2, hmem, ?_⟩
    have e : (fun i => if i = idx then true = true else S i) = fun i => S i ∨ i = idx := by
      funext i
      by_cases c : i = idx
      · simp [c]
      · simp [c]
    rw [e]; exact h3
  | false =>
    obtain ⟨s', h1, h2, h3⟩ := clearLoop_eq hi (S := S) d s h.geo (Nat.le_refl _) (by
      rintro ⟨i, h1, h2⟩
      rw [Nat.sub_self, Nat.pow_zero, Nat.div_one, Nat.div_one] at h2
      exact h1.2 h2) (fun l' hl' => h.lv l' hl') (fun l' hl' hl2 => by omega)
    rw [Nat.sub_self, Nat.pow_zero, Nat.div_one] at h1
    refine ⟨s', h1, h2, hmem, ?_⟩
    have e : (fun i => if i = idx then false = true else S i) = fun i => S i ∧ i ≠ idx := by
      funext i
      by_cases c : i = idx
      · simp [c]
      · simp [c]
    rw [e]; exact h3

end Sdsl.Nn
