/-
  The node interfaces of `wt_int` and `wm_int`: every leaf has depth `max_level`.
-/
import Verif.WtNav

namespace Sdsl.Wt

open Spec WtInt

theorem expandRange_spec {B : List Bool} {x : Nat → Word} {n : Nat} {P β : Word → Bool} {o : Nat} (h : Node B x n P β o) (hn : n < 2 ^ 64) {i j : Nat} (hij : i ≤ j) (hj : j ≤ n) :
    expandRange B o (rng x P i j) = some (rng x (fun a => P a && !β a) i j, rng x (fun a => P a && β a) i j) := by
  have s1 := occ_split (x := x) P β i
  have s2 := occ_split (x := x) P β j
  have m1 := occ_mono (x := x) (fun a => P a && β a) hij
  have m2 := occ_mono (x := x) (fun a => P a && !β a) hij
  rw [expandRange, h.rank_start, sbind, rng_fst, h.rank (by omega), sbind, rng_stop hn hij hj, h.rank hj, sbind]
  dsimp only
  rw [rng_size hn hij hj, rng, rng]
  have e1 : occ x P j - occ x P i - (Bv.cnt true B o + occ x (fun a => P a && β a) j - (Bv.cnt true B o + occ x (fun a => P a && β a) i)) =
      occ x (fun a => P a && !β a) j - occ x (fun a => P a && !β a) i := by omega
  have e2 : occ x P i - (Bv.cnt true B o + occ x (fun a => P a && β a) i - Bv.cnt true B o) = occ x (fun a => P a && !β a) i := by omega
  have e3 : Bv.cnt true B o + occ x (fun a => P a && β a) i - Bv.cnt true B o = occ x (fun a => P a && β a) i := by omega
  have e4 : Bv.cnt true B o + occ x (fun a => P a && β a) j - (Bv.cnt true B o + occ x (fun a => P a && β a) i) = occ x (fun a => P a && β a) j - occ x (fun a => P a && β a) i := by omega
  rw [e1, e2, e3, e4]; rfl

/-- The node of `a` with `c` levels below it. -/
def inode (xs : List Word) (L : Nat) (offs : Nat → Word → Nat) (c : Nat) (a : Word) : INode :=
  ⟨offs c a, occ (fun j => xs.getD j 0#64) (agree c a) xs.length, L - c, BitVec.ofNat 64 (key c a)⟩

/-- A tree whose leaves all have depth `L`; `offs c a` is the start of the node of `a` with `c` levels below it. -/
structure Fixed (T : Tree INode) (xs : List Word) (L : Nat) (tree : List Bool) (offs : Nat → Word → Nat) : Prop where
  ne : xs ≠ []
  small : xs.length < 2 ^ 64
  pos : 0 < L
  level : L ≤ 64
  lt : ∀ x ∈ xs, x.toNat < 2 ^ L
  isLeaf : ∀ v, T.isLeaf v = (v.level == L)
  sym : ∀ v, T.sym v = v.sym
  size : ∀ v, T.size v = v.size
  depth : T.depth = L
  root : T.root = ⟨0, xs.length, 0, 0#64⟩
  range : ∀ v r, T.expandRange v r = expandRange tree v.offset r
  bit : ∀ v i, T.bit v i = Bv.get tree (v.offset + i)
  congr : ∀ {c a b}, c ≤ L → key c a = key c b → offs c a = offs c b
  top : ∀ {a : Word}, a.toNat < 2 ^ L → offs L a = 0
  npos : ∀ {c a}, c < L → 0 < offs c a
  node : ∀ c, c < L → ∀ a, Node tree (fun j => xs.getD j 0#64) xs.length (agree (c + 1) a) (WtInt.bit c) (offs (c + 1) a)
  expand : ∀ {c a}, c < L → a.toNat < 2 ^ L → T.expand (inode xs L offs (c + 1) a) = some (inode xs L offs c (child c a false), inode xs L offs c (child c a true))

namespace Fixed

variable {T : Tree INode} {xs : List Word} {L : Nat} {tree : List Bool} {offs : Nat → Word → Nat}

theorem child_lt (h : Fixed T xs L tree offs) {c : Nat} (hc : c < L) {a : Word} (ha : a.toNat < 2 ^ L) (b : Bool) : (child c a b).toNat < 2 ^ L := by
  rw [child_toNat h.level hc ha]; exact WtInt.child_lt hc ha b

theorem agree_child' (h : Fixed T xs L tree offs) {c : Nat} (hc : c < L) {a : Word} (ha : a.toNat < 2 ^ L) (b : Bool) :
    agree c (child c a b) = fun y => agree (c + 1) a y && (WtInt.bit c y == b) := by
  funext y
  obtain ⟨h1, h2⟩ := child_key_succ h.level hc ha b
  rw [agree_child, h2, agree_of_key h1]

/-- The relation between a node, its symbols and its height. -/
def rel (xs : List Word) (L : Nat) (offs : Nat → Word → Nat) (v : INode) (P : Word → Bool) (d : Nat) : Prop :=
  ∃ a : Word, a.toNat < 2 ^ L ∧ d ≤ L ∧ v = inode xs L offs d a ∧ P = agree d a

theorem mem_lt (h : Fixed T xs L tree offs) {j : Nat} (hj : j < xs.length) : (xs.getD j 0#64).toNat < 2 ^ L := by
  rw [List.getD_eq_getElem?_getD, List.getElem?_eq_getElem hj]
  exact h.lt _ (List.getElem_mem hj)

theorem root_inode (h : Fixed T xs L tree offs) {a : Word} (ha : a.toNat < 2 ^ L) : T.root = inode xs L offs L a := by
  rw [h.root, inode, h.top ha, Nat.sub_self]
  have e1 : occ (fun j => xs.getD j 0#64) (agree L a) xs.length = xs.length := by
    rw [occ_congr (Q := fun _ => true) (fun j hj => agree_top ha (h.mem_lt hj)), occ_true]
  have e2 : key L a = 0 := Nat.div_eq_of_lt ha
  rw [e1, e2]

theorem refines (h : Fixed T xs L tree offs) : Refines T (fun j => xs.getD j 0#64) xs.length True (rel xs L offs) := by
  have hp := h.pos
  have hL := h.level
  refine ⟨h.small, ?_, ?_, ?_, ?_⟩
  · refine ⟨agree L 0#64, ⟨0#64, Nat.two_pow_pos _, by rw [h.depth]; exact Nat.le_refl _, ?_, by rw [h.depth]⟩, fun j hj => agree_top (Nat.two_pow_pos _) (h.mem_lt hj)⟩
    rw [h.depth]; exact h.root_inode (Nat.two_pow_pos _)
  · rintro v P d ⟨a, ha, hd, rfl, rfl⟩ hl y
    rw [h.isLeaf, inode, beq_iff_eq] at hl
    dsimp only at hl
    obtain rfl : d = 0 := by omega
    rw [agree_zero, h.sym, inode]
    dsimp only
    have : BitVec.ofNat 64 (key 0 a) = a := by
      apply BitVec.eq_of_toNat_eq
      rw [BitVec.toNat_ofNat, key, Nat.pow_zero, Nat.div_one, Nat.mod_eq_of_lt a.isLt]
    rw [this, beq_iff_eq]
  · rintro v P d ⟨a, ha, hd, rfl, rfl⟩
    rw [h.size, inode]
  · rintro v P d ⟨a, ha, hd, rfl, rfl⟩ hl
    rw [h.isLeaf, inode, beq_eq_false_iff_ne] at hl
    dsimp only at hl
    obtain ⟨c, rfl⟩ : ∃ c, d = c + 1 := ⟨d - 1, by omega⟩
    refine ⟨c, WtInt.bit c, _, _, rfl, h.expand (by omega) ha, ?_, ?_, ?_, ?_, ?_⟩
    · refine ⟨child c a false, h.child_lt (by omega) ha _, by omega, rfl, ?_⟩
      rw [h.agree_child' (by omega) ha]
      funext y; cases WtInt.bit c y <;> rfl
    · refine ⟨child c a true, h.child_lt (by omega) ha _, by omega, rfl, ?_⟩
      rw [h.agree_child' (by omega) ha]
      funext y; cases WtInt.bit c y <;> rfl
    · intro i j hij hj
      rw [h.range]
      exact expandRange_spec (h.node c (by omega) a) h.small hij hj
    · intro j hj hpj
      rw [h.bit]
      exact (h.node c (by omega) a).get hj hpj
    · intro _ y z hy hz by_ bz
      apply lt_of_key (c := c)
      have h1 := key_succ c y
      have h2 := key_succ c z
      rw [agree, beq_iff_eq] at hy hz
      rw [by_] at h1
      rw [bz] at h2
      simp at h1 h2
      omega

end Fixed

theorem sym_child {c : Nat} {a : Word} {L : Nat} (hL : L ≤ 64) (hc : c < L) (ha : a.toNat < 2 ^ L) :
    BitVec.ofNat 64 (key (c + 1) a) <<< 1 = BitVec.ofNat 64 (key c (child c a false)) ∧ BitVec.ofNat 64 (key (c + 1) a) <<< 1 ||| 1#64 = BitVec.ofNat 64 (key c (child c a true)) := by
  have hk : ∀ (d : Nat) (y : Word), (BitVec.ofNat 64 (key d y)).toNat = key d y := by
    intro d y
    have h1 : key d y ≤ y.toNat := Nat.div_le_self _ _
    rw [BitVec.toNat_ofNat, Nat.mod_eq_of_lt (by have := y.isLt; omega)]
  constructor
  · obtain ⟨h1, h2⟩ := child_key_succ hL hc ha false
    apply BitVec.eq_of_toNat_eq
    rw [hk, shl_one_toNat (by rw [hk, h1]) h2]
  · obtain ⟨h1, h2⟩ := child_key_succ hL hc ha true
    apply BitVec.eq_of_toNat_eq
    rw [hk, shl_or_toNat (by rw [hk, h1]) h2]

theorem key_split {c : Nat} {a b : Word} (h : key c a = key c b) : key (c + 1) a = key (c + 1) b ∧ WtInt.bit c a = WtInt.bit c b := by
  have h1 := key_succ c a
  have h2 := key_succ c b
  have h3 : (WtInt.bit c a).toNat ≤ 1 := Bool.toNat_le _
  have h4 : (WtInt.bit c b).toNat ≤ 1 := Bool.toNat_le _
  refine ⟨by omega, ?_⟩
  have h5 : (WtInt.bit c a).toNat = (WtInt.bit c b).toNat := by omega
  cases ha : WtInt.bit c a <;> cases hb : WtInt.bit c b <;> rw [ha, hb] at h5 <;> simp at h5 ⊢

theorem WtInt.WtOk.fixed {t : WtInt} {xs : List Word} (h : WtOk t xs) (hne : xs ≠ []) (hn : xs.length < 2 ^ 64) : Fixed t.nav xs t.maxLevel t.tree (off t.maxLevel xs) := by
  have hpos : 0 < xs.length := List.length_pos_iff.2 hne
  have hL := h.level
  refine ⟨hne, hn, h.pos, by omega, h.lt, fun _ => rfl, fun _ => rfl, fun _ => rfl, rfl, by rw [WtInt.nav, h.size], fun _ _ => rfl, fun _ _ => rfl, fun _ hk => off_of_key hk, h.off_top, ?_, h.node, ?_⟩
  · intro c a hc
    rw [off]
    have : 0 < (t.maxLevel - c) * xs.length := Nat.mul_pos (by omega) hpos
    omega
  · intro c a hc ha
    obtain ⟨k1, b1⟩ := child_key_succ (by omega) hc ha false
    obtain ⟨k2, b2⟩ := child_key_succ (by omega) hc ha true
    obtain ⟨s1, s2⟩ := sym_child (L := t.maxLevel) (by omega) hc ha
    have z := step_zero h hc b1
    have o := step_one h hc b2
    rw [off_of_key k1] at z
    rw [off_of_key k2, agree_of_key k2] at o
    have hs := occ_split (x := fun j => xs.getD j 0#64) (agree (c + 1) a) (WtInt.bit c) xs.length
    have n := h.node c hc a
    show WtInt.expand t _ = _
    rw [WtInt.expand, inode]
    dsimp only
    rw [n.rank_start, sbind, n.rank (Nat.le_refl _), sbind]
    rw [inode, inode, s2, s1, show t.maxLevel - (c + 1) + 1 = t.maxLevel - c by omega, Nat.add_sub_cancel_left, z,
      occ_child_zero b1, occ_child_one b2, agree_of_key k1, agree_of_key k2]
    rw [show ∀ p q : INode, (pure (p, q) : Option (INode × INode)) = some (p, q) from fun _ _ => rfl]
    congr 2
    · congr 1; omega
    · congr 1; omega

theorem WmInt.start_congr {t : WmInt} {a b : Word} : ∀ k, k ≤ t.maxLevel → key (t.maxLevel - k) a = key (t.maxLevel - k) b → WmInt.start t a k = WmInt.start t b k := by
  intro k
  induction k with
  | zero => intro _ _; rfl
  | succ k ih =>
    intro hk hkey
    obtain ⟨k1, b1⟩ := key_split hkey
    rw [show t.maxLevel - (k + 1) + 1 = t.maxLevel - k by omega] at k1
    rw [WmInt.start, WmInt.start, b1, ih (by omega) k1]

theorem WmInt.WmOk.fixed {t : WmInt} {xs : List Word} (h : WmInt.WmOk t xs) (hne : xs ≠ []) (hn : xs.length < 2 ^ 64) : Fixed t.nav xs t.maxLevel t.tree (WmInt.off t) := by
  have hpos : 0 < xs.length := List.length_pos_iff.2 hne
  have hL := h.level
  have hcongr : ∀ {c a b}, c ≤ t.maxLevel → key c a = key c b → WmInt.off t c a = WmInt.off t c b := by
    intro c a b hc hk
    exact WmInt.start_congr _ (by omega) (by rw [show t.maxLevel - (t.maxLevel - c) = c by omega]; exact hk)
  refine ⟨hne, hn, h.pos, h.level, h.lt, fun _ => rfl, fun _ => rfl, fun _ => rfl, rfl, by rw [WmInt.nav, h.size], fun _ _ => rfl, fun _ _ => rfl, hcongr, fun _ => WmInt.off_top t _, ?_, h.node, ?_⟩
  · intro c a hc
    have h1 := WmInt.le_start t a (t.maxLevel - c)
    have : 0 < (t.maxLevel - c) * t.size := Nat.mul_pos (by omega) (by rw [h.size]; exact hpos)
    rw [WmInt.off]; omega
  · intro c a hc ha
    obtain ⟨k1, b1⟩ := child_key_succ (by omega) hc ha false
    obtain ⟨k2, b2⟩ := child_key_succ (by omega) hc ha true
    obtain ⟨s1, s2⟩ := sym_child (L := t.maxLevel) (by omega) hc ha
    obtain ⟨a1, a2, a3, a4, a5, a6⟩ := h.step hc (child c a false)
    obtain ⟨-, -, -, -, -, c6⟩ := h.step hc (child c a true)
    rw [b1, if_neg (by simp), hcongr (by omega) k1] at a6
    rw [b2, if_pos rfl, hcongr (by omega) k2] at c6
    rw [hcongr (by omega) k1] at a4 a5
    have hs := occ_split (x := fun j => xs.getD j 0#64) (agree (c + 1) a) (WtInt.bit c) xs.length
    have n := h.node c hc a
    show WmInt.expand t _ = _
    rw [WmInt.expand, inode]
    dsimp only
    rw [n.rank_start, sbind, n.rank (Nat.le_refl _), sbind, a1, sbind, a2, sbind]
    rw [inode, inode, s2, s1, a6, c6, show t.maxLevel - (c + 1) + 1 = t.maxLevel - c by omega, Nat.add_sub_cancel_left,
      occ_child_zero b1, occ_child_one b2, agree_of_key k1, agree_of_key k2]
    rw [show ∀ p q : INode, (pure (p, q) : Option (INode × INode)) = some (p, q) from fun _ _ => rfl]
    generalize (t.maxLevel - c) * t.size = M
    generalize (t.maxLevel - (c + 1)) * t.size = M' at *
    congr 2
    congr 1 <;> omega

end Sdsl.Wt
