/-
  `symbol_lte` and `symbol_gte` on trees whose leaves all have the same depth.
-/
import Verif.WtFixed

namespace Sdsl.Wt

open Spec WtInt Bits

namespace Fixed

variable {T : Tree INode} {xs : List Word} {L : Nat} {tree : List Bool} {offs : Nat → Word → Nat}

theorem inode_congr (h : Fixed T xs L tree offs) {d : Nat} (hd : d ≤ L) {a b : Word} (hk : key d a = key d b) : inode xs L offs d a = inode xs L offs d b := by
  rw [inode, inode, h.congr hd hk, agree_of_key hk, hk]

theorem size_ne (d : Nat) (a : Word) : (inode xs L offs d a).size ≠ 0 ↔ ∃ y ∈ xs, key d y = key d a := by
  rw [inode]
  dsimp only
  rw [ne_eq, occ_eq_zero]
  constructor
  · intro h1
    apply Classical.byContradiction
    intro hc
    apply h1
    intro j hj
    rw [agree, beq_eq_false_iff_ne]
    intro hk
    refine hc ⟨xs.getD j 0#64, ?_, hk⟩
    rw [List.getD_eq_getElem?_getD, List.getElem?_eq_getElem hj]
    exact List.getElem_mem hj
  · rintro ⟨y, hy, hk⟩ h1
    obtain ⟨j, hj, rfl⟩ := List.getElem_of_mem hy
    have := h1 j hj
    rw [List.getD_eq_getElem?_getD, List.getElem?_eq_getElem hj, agree, beq_eq_false_iff_ne] at this
    exact this hk

theorem leaf_true (h : Fixed T xs L tree offs) (a : Word) : T.isLeaf (inode xs L offs 0 a) = true := by
  rw [h.isLeaf, inode]; simp

theorem leaf_false (h : Fixed T xs L tree offs) (d : Nat) (a : Word) : T.isLeaf (inode xs L offs (d + 1) a) = false := by
  have := h.pos
  rw [h.isLeaf, inode, beq_eq_false_iff_ne]
  dsimp only; omega

theorem leaf_sym (a : Word) : (inode xs L offs 0 a).sym = a := by
  rw [inode]
  dsimp only
  apply BitVec.eq_of_toNat_eq
  rw [BitVec.toNat_ofNat, key, Nat.pow_zero, Nat.div_one, Nat.mod_eq_of_lt a.isLt]

theorem shr_mask (h : Fixed T xs L tree offs) {mask : Word} (hm : mask.toNat = 2 ^ L / 2) {d : Nat} (hd : d < L) (a : Word) :
    ∃ m, shr mask (inode xs L offs (d + 1) a).level = some m ∧ m.toNat = 2 ^ (d + 1) / 2 := by
  have := h.level
  refine ⟨mask >>> (L - (d + 1)), ?_, ?_⟩
  · rw [inode]; dsimp only; exact shr_of_lt (by omega)
  · rw [BitVec.toNat_ushiftRight, hm, Nat.shiftRight_eq_div_pow]
    obtain ⟨k, hk⟩ : ∃ k, L = d + 1 + k := ⟨L - (d + 1), by omega⟩
    rw [hk, Nat.add_sub_cancel_left, Nat.div_div_eq_div_mul, Nat.mul_comm 2, ← Nat.div_div_eq_div_mul, Nat.pow_add, Nat.mul_div_cancel _ (Nat.two_pow_pos _)]

theorem key_zero_eq {a b : Word} (h : key 0 a = key 0 b) : a = b := by
  rw [key, key, Nat.pow_zero, Nat.div_one, Nat.div_one] at h
  exact BitVec.eq_of_toNat_eq h

theorem le_of_key {d : Nat} {a b : Word} (h : a ≤ b) : key d a ≤ key d b := Nat.div_le_div_right (BitVec.le_def.1 h)

theorem key_lt {d : Nat} {a b : Word} (h : key d a < key d b) : a.toNat < b.toNat := BitVec.lt_def.1 (lt_of_key h)

theorem bit_allSet {d : Nat} (hd : d < 64) : WtInt.bit d allSet = true := by
  rw [WtInt.bit, show allSet.toNat = 2 ^ 64 - 1 from rfl, Nat.testBit_two_pow_sub_one]
  simpa using hd

theorem bit_zero' (d : Nat) : WtInt.bit d 0#64 = false := by simp [WtInt.bit]

/-- The node or one of its children is not empty. -/
theorem child_cases (h : Fixed T xs L tree offs) {d : Nat} (hd : d < L) {a : Word} (ha : a.toNat < 2 ^ L) (y : Word) :
    key (d + 1) y = key (d + 1) a ↔ key d y = key d (child d a false) ∨ key d y = key d (child d a true) := by
  have h1 := child_key h.level hd ha false
  have h2 := child_key h.level hd ha true
  have h3 := key_succ d y
  have h4 : (WtInt.bit d y).toNat ≤ 1 := Bool.toNat_le _
  simp only [Bool.toNat_false, Bool.toNat_true] at h1 h2
  omega

theorem maxLoop_spec (h : Fixed T xs L tree offs) {mask : Word} (hm : mask.toNat = 2 ^ L / 2) : ∀ (d : Nat) (a : Word), d ≤ L → a.toNat < 2 ^ L → (∃ y ∈ xs, key d y = key d a) →
    ∀ fuel pred, d < fuel → ∃ M ∈ xs, Tree.lteLoop T mask fuel (inode xs L offs d a) pred allSet = some (true, M) ∧ key d M = key d a ∧ ∀ y ∈ xs, key d y = key d a → y ≤ M := by
  intro d
  induction d with
  | zero =>
    rintro a - ha ⟨y, hy, hk⟩ fuel pred hf
    obtain ⟨f, rfl⟩ : ∃ f, fuel = f + 1 := ⟨fuel - 1, by omega⟩
    obtain rfl := key_zero_eq hk
    refine ⟨y, hy, by rw [Tree.lteLoop, if_pos (h.leaf_true y), leaf_sym], rfl, fun z _ hz => ?_⟩
    rw [key_zero_eq hz]; exact BitVec.le_refl _
  | succ d ih =>
    rintro a hd ha hex fuel pred hf
    obtain ⟨f, rfl⟩ : ∃ f, fuel = f + 1 := ⟨fuel - 1, by omega⟩
    have hL := h.level
    obtain ⟨m, hm1, hm2⟩ := h.shr_mask hm (d := d) (by omega) a
    have k1 := child_key hL (c := d) (by omega) ha false
    have k2 := child_key hL (c := d) (by omega) ha true
    simp only [Bool.toNat_false, Bool.toNat_true] at k1 k2
    rw [Tree.lteLoop, if_neg (by rw [h.leaf_false]; simp), h.expand (by omega) ha, sbind, hm1, sbind, if_pos ((mask_bit hm2 _).2 (bit_allSet (by omega)))]
    dsimp only
    by_cases hs : (inode xs L offs d (child d a true)).size ≠ 0
    · rw [if_pos hs]
      rw [size_ne] at hs
      obtain ⟨M, h1, h2, h3, h4⟩ := ih (child d a true) (by omega) (h.child_lt (by omega) ha _) hs f (if (inode xs L offs d (child d a false)).size ≠ 0 then inode xs L offs d (child d a false) else pred) (by omega)
      refine ⟨M, h1, h2, (h.child_cases (by omega) ha M).2 (Or.inr h3), ?_⟩
      intro y hy hk
      rcases (h.child_cases (by omega) ha y).1 hk with e | e
      · have := key_lt (d := d) (a := y) (b := M) (by omega)
        rw [BitVec.le_def]; omega
      · exact h4 y hy e
    · rw [if_neg hs]
      have hs' := (not_congr (size_ne (xs := xs) (L := L) (offs := offs) d (child d a true))).1 hs
      have hs0 : ∃ y ∈ xs, key d y = key d (child d a false) := by
        obtain ⟨y, hy, hk⟩ := hex
        rcases (h.child_cases (by omega) ha y).1 hk with e | e
        · exact ⟨y, hy, e⟩
        · exact absurd ⟨y, hy, e⟩ hs'
      obtain ⟨M, h1, h2, h3, h4⟩ := ih (child d a false) (by omega) (h.child_lt (by omega) ha _) hs0 f pred (by omega)
      refine ⟨M, h1, h2, (h.child_cases (by omega) ha M).2 (Or.inl h3), ?_⟩
      intro y hy hk
      rcases (h.child_cases (by omega) ha y).1 hk with e | e
      · exact h4 y hy e
      · exact absurd ⟨y, hy, e⟩ hs'

theorem minLoop_spec (h : Fixed T xs L tree offs) {mask : Word} (hm : mask.toNat = 2 ^ L / 2) : ∀ (d : Nat) (a : Word), d ≤ L → a.toNat < 2 ^ L → (∃ y ∈ xs, key d y = key d a) →
    ∀ fuel succ, d < fuel → ∃ M ∈ xs, Tree.gteLoop T mask fuel (inode xs L offs d a) succ 0#64 = some (true, M) ∧ key d M = key d a ∧ ∀ y ∈ xs, key d y = key d a → M ≤ y := by
  intro d
  induction d with
  | zero =>
    rintro a - ha ⟨y, hy, hk⟩ fuel succ hf
    obtain ⟨f, rfl⟩ : ∃ f, fuel = f + 1 := ⟨fuel - 1, by omega⟩
    obtain rfl := key_zero_eq hk
    refine ⟨y, hy, by rw [Tree.gteLoop, if_pos (h.leaf_true y), leaf_sym], rfl, fun z _ hz => ?_⟩
    rw [key_zero_eq hz]; exact BitVec.le_refl _
  | succ d ih =>
    rintro a hd ha hex fuel succ hf
    obtain ⟨f, rfl⟩ : ∃ f, fuel = f + 1 := ⟨fuel - 1, by omega⟩
    have hL := h.level
    obtain ⟨m, hm1, hm2⟩ := h.shr_mask hm (d := d) (by omega) a
    have k1 := child_key hL (c := d) (by omega) ha false
    have k2 := child_key hL (c := d) (by omega) ha true
    simp only [Bool.toNat_false, Bool.toNat_true] at k1 k2
    rw [Tree.gteLoop, if_neg (by rw [h.leaf_false]; simp), h.expand (by omega) ha, sbind, hm1, sbind, if_neg (by rw [mask_bit hm2, bit_zero']; simp)]
    dsimp only
    by_cases hs : (inode xs L offs d (child d a false)).size ≠ 0
    · rw [if_pos hs]
      rw [size_ne] at hs
      obtain ⟨M, h1, h2, h3, h4⟩ := ih (child d a false) (by omega) (h.child_lt (by omega) ha _) hs f (if (inode xs L offs d (child d a true)).size ≠ 0 then inode xs L offs d (child d a true) else succ) (by omega)
      refine ⟨M, h1, h2, (h.child_cases (by omega) ha M).2 (Or.inl h3), ?_⟩
      intro y hy hk
      rcases (h.child_cases (by omega) ha y).1 hk with e | e
      · exact h4 y hy e
      · have := key_lt (d := d) (a := M) (b := y) (by omega)
        rw [BitVec.le_def]; omega
    · rw [if_neg hs]
      have hs' := (not_congr (size_ne (xs := xs) (L := L) (offs := offs) d (child d a false))).1 hs
      have hs0 : ∃ y ∈ xs, key d y = key d (child d a true) := by
        obtain ⟨y, hy, hk⟩ := hex
        rcases (h.child_cases (by omega) ha y).1 hk with e | e
        · exact absurd ⟨y, hy, e⟩ hs'
        · exact ⟨y, hy, e⟩
      obtain ⟨M, h1, h2, h3, h4⟩ := ih (child d a true) (by omega) (h.child_lt (by omega) ha _) hs0 f succ (by omega)
      refine ⟨M, h1, h2, (h.child_cases (by omega) ha M).2 (Or.inr h3), ?_⟩
      intro y hy hk
      rcases (h.child_cases (by omega) ha y).1 hk with e | e
      · exact absurd ⟨y, hy, e⟩ hs'
      · exact h4 y hy e

/-- The remembered predecessor: the root stands for none. -/
def PredOk (T : Tree INode) (xs : List Word) (L : Nat) (offs : Nat → Word → Nat) (c : Word) (d : Nat) (pred : INode) : Prop :=
  (pred = T.root ∧ ∀ y ∈ xs, ¬ key d y < key d c) ∨
  ∃ e p, e < L ∧ p.toNat < 2 ^ L ∧ pred = inode xs L offs e p ∧ (∃ y ∈ xs, key e y = key e p) ∧ (∀ y, key e y = key e p → key d y < key d c) ∧
    ∀ y ∈ xs, key d y < key d c → key e y = key e p ∨ ∀ z, key e z = key e p → y < z

theorem lteLoop_spec (h : Fixed T xs L tree offs) {mask : Word} (hm : mask.toNat = 2 ^ L / 2) {c : Word} (hc : c.toNat < 2 ^ L) : ∀ (d : Nat) (pred : INode), d ≤ L →
    (∃ y ∈ xs, key d y = key d c) → PredOk T xs L offs c d pred → ∀ fuel, d + L < fuel →
    (∃ M ∈ xs, Tree.lteLoop T mask fuel (inode xs L offs d c) pred c = some (true, M) ∧ M ≤ c ∧ ∀ y ∈ xs, y ≤ c → y ≤ M) ∨
    (Tree.lteLoop T mask fuel (inode xs L offs d c) pred c = some (false, 0#64) ∧ ∀ y ∈ xs, ¬ y ≤ c) := by
  intro d
  induction d with
  | zero =>
    rintro pred - ⟨y, hy, hk⟩ - fuel hf
    obtain ⟨f, rfl⟩ : ∃ f, fuel = f + 1 := ⟨fuel - 1, by omega⟩
    obtain rfl := key_zero_eq hk
    exact Or.inl ⟨y, hy, by rw [Tree.lteLoop, if_pos (h.leaf_true y), leaf_sym], BitVec.le_refl _, fun z _ hz => hz⟩
  | succ d ih =>
    rintro pred hd hex hpred fuel hf
    obtain ⟨f, rfl⟩ : ∃ f, fuel = f + 1 := ⟨fuel - 1, by omega⟩
    have hL := h.level
    obtain ⟨m, hm1, hm2⟩ := h.shr_mask hm (d := d) (by omega) c
    have k1 := child_key hL (c := d) (by omega) hc false
    have k2 := child_key hL (c := d) (by omega) hc true
    have kc := key_succ d c
    simp only [Bool.toNat_false, Bool.toNat_true] at k1 k2
    rw [Tree.lteLoop, if_neg (by rw [h.leaf_false]; simp), h.expand (by omega) hc, sbind, hm1, sbind]
    dsimp only
    have hks : ∀ y : Word, key d y = 2 * key (d + 1) y ∨ key d y = 2 * key (d + 1) y + 1 := by
      intro y
      have := key_succ d y
      have : (WtInt.bit d y).toNat ≤ 1 := Bool.toNat_le _
      omega
    cases hb : WtInt.bit d c with
    | true =>
      rw [hb, Bool.toNat_true] at kc
      rw [if_pos ((mask_bit hm2 _).2 hb), h.inode_congr (by omega) (show key d (child d c true) = key d c by omega)]
      by_cases hs : (inode xs L offs d c).size ≠ 0
      · rw [if_pos hs]
        refine ih _ (by omega) ((size_ne _ _).1 hs) ?_ f (by omega)
        by_cases hs0 : (inode xs L offs d (child d c false)).size ≠ 0
        · rw [if_pos hs0]
          refine Or.inr ⟨d, child d c false, by omega, h.child_lt (by omega) hc _, rfl, (size_ne _ _).1 hs0, fun y hy => by omega, ?_⟩
          intro y hy hk
          rcases hks y with e | e <;> by_cases e2 : key d y = key d (child d c false)
          · exact Or.inl e2
          · right
            intro z hz
            exact lt_of_key (c := d) (by omega)
          · exact Or.inl e2
          · right
            intro z hz
            exact lt_of_key (c := d) (by omega)
        · rw [if_neg hs0]
          have hs' := (not_congr (size_ne (xs := xs) (L := L) (offs := offs) d (child d c false))).1 hs0
          have hlt : ∀ y ∈ xs, key d y < key d c → key (d + 1) y < key (d + 1) c := by
            intro y hy hk
            have : key d y ≠ key d (child d c false) := fun e => hs' ⟨y, hy, e⟩
            have := hks y
            omega
          rcases hpred with ⟨e1, e2⟩ | ⟨e, p, e1, e2, e3, e4, e5, e6⟩
          · exact Or.inl ⟨e1, fun y hy hk => e2 y hy (hlt y hy hk)⟩
          · refine Or.inr ⟨e, p, e1, e2, e3, e4, fun y hy => ?_, fun y hy hk => e6 y hy (hlt y hy hk)⟩
            have := e5 y hy
            have := hks y
            omega
      · rw [if_neg hs]
        have hs' := (not_congr (size_ne (xs := xs) (L := L) (offs := offs) d c)).1 hs
        have hs0 : ∃ y ∈ xs, key d y = key d (child d c false) := by
          obtain ⟨y, hy, hk⟩ := hex
          refine ⟨y, hy, ?_⟩
          have : key d y ≠ key d c := fun e => hs' ⟨y, hy, e⟩
          have := hks y
          omega
        obtain ⟨M, h1, h2, h3, h4⟩ := h.maxLoop_spec hm d (child d c false) (by omega) (h.child_lt (by omega) hc _) hs0 f pred (by omega)
        refine Or.inl ⟨M, h1, h2, ?_, ?_⟩
        · have := key_lt (d := d) (a := M) (b := c) (by omega)
          rw [BitVec.le_def]; omega
        · intro y hy hyc
          have e1 := le_of_key (d := d) hyc
          have : key d y ≠ key d c := fun e => hs' ⟨y, hy, e⟩
          by_cases e2 : key d y = key d (child d c false)
          · exact h4 y hy e2
          · have := key_lt (d := d) (a := y) (b := M) (by omega)
            rw [BitVec.le_def]; omega
    | false =>
      rw [hb, Bool.toNat_false] at kc
      rw [if_neg (by rw [mask_bit hm2, hb]; simp), h.inode_congr (by omega) (show key d (child d c false) = key d c by omega)]
      have hlt : ∀ y, key d y < key d c ↔ key (d + 1) y < key (d + 1) c := by
        intro y
        have := hks y
        omega
      have hpred' : PredOk T xs L offs c d pred := by
        rcases hpred with ⟨e1, e2⟩ | ⟨e, p, e1, e2, e3, e4, e5, e6⟩
        · exact Or.inl ⟨e1, fun y hy hk => e2 y hy ((hlt y).1 hk)⟩
        · exact Or.inr ⟨e, p, e1, e2, e3, e4, fun y hy => (hlt y).2 (e5 y hy), fun y hy hk => e6 y hy ((hlt y).1 hk)⟩
      by_cases hs : (inode xs L offs d c).size ≠ 0
      · rw [if_pos hs]
        exact ih _ (by omega) ((size_ne _ _).1 hs) hpred' f (by omega)
      · rw [if_neg hs]
        have hs' := (not_congr (size_ne (xs := xs) (L := L) (offs := offs) d c)).1 hs
        have hle : ∀ y ∈ xs, y ≤ c → key d y < key d c := by
          intro y hy hyc
          have e1 := le_of_key (d := d) hyc
          have : key d y ≠ key d c := fun e => hs' ⟨y, hy, e⟩
          omega
        rcases hpred' with ⟨e1, e2⟩ | ⟨e, p, e1, e2, e3, e4, e5, e6⟩
        · rw [if_pos (by rw [e1])]
          exact Or.inr ⟨rfl, fun y hy hyc => e2 y hy (hle y hy hyc)⟩
        · have hpos := h.npos (c := e) (a := p) e1
          rw [if_neg (by rw [e3, h.root, inode]; dsimp only; omega), e3]
          obtain ⟨M, h1, h2, h3, h4⟩ := h.maxLoop_spec hm e p (by omega) e2 e4 f (inode xs L offs e p) (by omega)
          refine Or.inl ⟨M, h1, h2, ?_, ?_⟩
          · have := key_lt (e5 M h3)
            rw [BitVec.le_def]; omega
          · intro y hy hyc
            rcases e6 y hy (hle y hy hyc) with e7 | e7
            · exact h4 y hy e7
            · have := BitVec.lt_def.1 (e7 M h3)
              rw [BitVec.le_def]; omega

/-- The remembered successor: the root stands for none. -/
def SuccOk (T : Tree INode) (xs : List Word) (L : Nat) (offs : Nat → Word → Nat) (c : Word) (d : Nat) (succ : INode) : Prop :=
  (succ = T.root ∧ ∀ y ∈ xs, ¬ key d c < key d y) ∨
  ∃ e p, e < L ∧ p.toNat < 2 ^ L ∧ succ = inode xs L offs e p ∧ (∃ y ∈ xs, key e y = key e p) ∧ (∀ y, key e y = key e p → key d c < key d y) ∧
    ∀ y ∈ xs, key d c < key d y → key e y = key e p ∨ ∀ z, key e z = key e p → z < y

theorem gteLoop_spec (h : Fixed T xs L tree offs) {mask : Word} (hm : mask.toNat = 2 ^ L / 2) {c : Word} (hc : c.toNat < 2 ^ L) : ∀ (d : Nat) (succ : INode), d ≤ L →
    (∃ y ∈ xs, key d y = key d c) → SuccOk T xs L offs c d succ → ∀ fuel, d + L < fuel →
    (∃ M ∈ xs, Tree.gteLoop T mask fuel (inode xs L offs d c) succ c = some (true, M) ∧ c ≤ M ∧ ∀ y ∈ xs, c ≤ y → M ≤ y) ∨
    (Tree.gteLoop T mask fuel (inode xs L offs d c) succ c = some (false, 0#64) ∧ ∀ y ∈ xs, ¬ c ≤ y) := by
  intro d
  induction d with
  | zero =>
    rintro succ - ⟨y, hy, hk⟩ - fuel hf
    obtain ⟨f, rfl⟩ : ∃ f, fuel = f + 1 := ⟨fuel - 1, by omega⟩
    obtain rfl := key_zero_eq hk
    exact Or.inl ⟨y, hy, by rw [Tree.gteLoop, if_pos (h.leaf_true y), leaf_sym], BitVec.le_refl _, fun z _ hz => hz⟩
  | succ d ih =>
    rintro succ hd hex hsucc fuel hf
    obtain ⟨f, rfl⟩ : ∃ f, fuel = f + 1 := ⟨fuel - 1, by omega⟩
    have hL := h.level
    obtain ⟨m, hm1, hm2⟩ := h.shr_mask hm (d := d) (by omega) c
    have k1 := child_key hL (c := d) (by omega) hc false
    have k2 := child_key hL (c := d) (by omega) hc true
    have kc := key_succ d c
    simp only [Bool.toNat_false, Bool.toNat_true] at k1 k2
    rw [Tree.gteLoop, if_neg (by rw [h.leaf_false]; simp), h.expand (by omega) hc, sbind, hm1, sbind]
    dsimp only
    have hks : ∀ y : Word, key d y = 2 * key (d + 1) y ∨ key d y = 2 * key (d + 1) y + 1 := by
      intro y
      have := key_succ d y
      have : (WtInt.bit d y).toNat ≤ 1 := Bool.toNat_le _
      omega
    cases hb : WtInt.bit d c with
    | false =>
      rw [hb, Bool.toNat_false] at kc
      rw [if_neg (by rw [mask_bit hm2, hb]; simp), h.inode_congr (by omega) (show key d (child d c false) = key d c by omega)]
      by_cases hs : (inode xs L offs d c).size ≠ 0
      · rw [if_pos hs]
        refine ih _ (by omega) ((size_ne _ _).1 hs) ?_ f (by omega)
        by_cases hs0 : (inode xs L offs d (child d c true)).size ≠ 0
        · rw [if_pos hs0]
          refine Or.inr ⟨d, child d c true, by omega, h.child_lt (by omega) hc _, rfl, (size_ne _ _).1 hs0, fun y hy => by omega, ?_⟩
          intro y hy hk
          by_cases e2 : key d y = key d (child d c true)
          · exact Or.inl e2
          · right
            intro z hz
            exact lt_of_key (c := d) (by omega)
        · rw [if_neg hs0]
          have hs' := (not_congr (size_ne (xs := xs) (L := L) (offs := offs) d (child d c true))).1 hs0
          have hlt : ∀ y ∈ xs, key d c < key d y → key (d + 1) c < key (d + 1) y := by
            intro y hy hk
            have : key d y ≠ key d (child d c true) := fun e => hs' ⟨y, hy, e⟩
            have := hks y
            omega
          rcases hsucc with ⟨e1, e2⟩ | ⟨e, p, e1, e2, e3, e4, e5, e6⟩
          · exact Or.inl ⟨e1, fun y hy hk => e2 y hy (hlt y hy hk)⟩
          · refine Or.inr ⟨e, p, e1, e2, e3, e4, fun y hy => ?_, fun y hy hk => e6 y hy (hlt y hy hk)⟩
            have := e5 y hy
            have := hks y
            omega
      · rw [if_neg hs]
        have hs' := (not_congr (size_ne (xs := xs) (L := L) (offs := offs) d c)).1 hs
        have hs0 : ∃ y ∈ xs, key d y = key d (child d c true) := by
          obtain ⟨y, hy, hk⟩ := hex
          refine ⟨y, hy, ?_⟩
          have : key d y ≠ key d c := fun e => hs' ⟨y, hy, e⟩
          have := hks y
          omega
        obtain ⟨M, h1, h2, h3, h4⟩ := h.minLoop_spec hm d (child d c true) (by omega) (h.child_lt (by omega) hc _) hs0 f succ (by omega)
        refine Or.inl ⟨M, h1, h2, ?_, ?_⟩
        · have := key_lt (d := d) (a := c) (b := M) (by omega)
          rw [BitVec.le_def]; omega
        · intro y hy hyc
          have e1 := le_of_key (d := d) hyc
          have : key d y ≠ key d c := fun e => hs' ⟨y, hy, e⟩
          by_cases e2 : key d y = key d (child d c true)
          · exact h4 y hy e2
          · have := key_lt (d := d) (a := M) (b := y) (by omega)
            rw [BitVec.le_def]; omega
    | true =>
      rw [hb, Bool.toNat_true] at kc
      rw [if_pos ((mask_bit hm2 _).2 hb), h.inode_congr (by omega) (show key d (child d c true) = key d c by omega)]
      have hlt : ∀ y, key d c < key d y ↔ key (d + 1) c < key (d + 1) y := by
        intro y
        have := hks y
        omega
      have hsucc' : SuccOk T xs L offs c d succ := by
        rcases hsucc with ⟨e1, e2⟩ | ⟨e, p, e1, e2, e3, e4, e5, e6⟩
        · exact Or.inl ⟨e1, fun y hy hk => e2 y hy ((hlt y).1 hk)⟩
        · exact Or.inr ⟨e, p, e1, e2, e3, e4, fun y hy => (hlt y).2 (e5 y hy), fun y hy hk => e6 y hy ((hlt y).1 hk)⟩
      by_cases hs : (inode xs L offs d c).size ≠ 0
      · rw [if_pos hs]
        exact ih _ (by omega) ((size_ne _ _).1 hs) hsucc' f (by omega)
      · rw [if_neg hs]
        have hs' := (not_congr (size_ne (xs := xs) (L := L) (offs := offs) d c)).1 hs
        have hle : ∀ y ∈ xs, c ≤ y → key d c < key d y := by
          intro y hy hyc
          have e1 := le_of_key (d := d) hyc
          have : key d y ≠ key d c := fun e => hs' ⟨y, hy, e⟩
          omega
        rcases hsucc' with ⟨e1, e2⟩ | ⟨e, p, e1, e2, e3, e4, e5, e6⟩
        · rw [if_pos (by rw [e1])]
          exact Or.inr ⟨rfl, fun y hy hyc => e2 y hy (hle y hy hyc)⟩
        · have hpos := h.npos (c := e) (a := p) e1
          rw [if_neg (by rw [e3, h.root, inode]; dsimp only; omega), e3]
          obtain ⟨M, h1, h2, h3, h4⟩ := h.minLoop_spec hm e p (by omega) e2 e4 f (inode xs L offs e p) (by omega)
          refine Or.inl ⟨M, h1, h2, ?_, ?_⟩
          · have := key_lt (e5 M h3)
            rw [BitVec.le_def]; omega
          · intro y hy hyc
            rcases e6 y hy (hle y hy hyc) with e7 | e7
            · exact h4 y hy e7
            · have := BitVec.lt_def.1 (e7 M h3)
              rw [BitVec.le_def]; omega

theorem top_ex (h : Fixed T xs L tree offs) {c : Word} (hc : c.toNat < 2 ^ L) : (∃ y ∈ xs, key L y = key L c) ∧ ∀ y ∈ xs, key L y = 0 ∧ key L c = 0 := by
  have h0 : key L c = 0 := Nat.div_eq_of_lt hc
  have h1 : ∀ y ∈ xs, key L y = 0 := fun y hy => Nat.div_eq_of_lt (h.lt y hy)
  refine ⟨?_, fun y hy => ⟨h1 y hy, h0⟩⟩
  obtain ⟨y, hy⟩ := List.exists_mem_of_ne_nil _ h.ne
  exact ⟨y, hy, by rw [h0, h1 y hy]⟩

theorem topMask_spec (h : Fixed T xs L tree offs) : ∃ m, Tree.topMask L = some m ∧ m.toNat = 2 ^ L / 2 := by
  have h1 := h.pos
  have h2 := h.level
  refine ⟨1#64 <<< (L - 1), ?_, ?_⟩
  · rw [Tree.topMask, if_neg (by omega), shl_of_lt (by omega)]
  · rw [one_shl_toNat (by omega)]
    obtain ⟨k, hk⟩ : ∃ k, L = k + 1 := ⟨L - 1, by omega⟩
    rw [hk, Nat.add_sub_cancel, Nat.pow_succ, Nat.mul_div_cancel _ (by decide)]

/-- `symbol_lte`: the greatest symbol that is at most `c`. -/
theorem symbolLte_spec (h : Fixed T xs L tree offs) (hL : L ≤ 63) (c : Word) :
    (∃ M ∈ xs, Tree.symbolLte T L c = some (true, M) ∧ M ≤ c ∧ ∀ y ∈ xs, y ≤ c → y ≤ M) ∨ (Tree.symbolLte T L c = some (false, 0#64) ∧ ∀ y ∈ xs, ¬ y ≤ c) := by
  obtain ⟨m, hm1, hm2⟩ := h.topMask_spec
  obtain ⟨lo, hlo1, hlo2⟩ : ∃ lo, loSet L = some lo ∧ lo.toNat = 2 ^ L - 1 := by
    refine ⟨_, loSet_eq h.level, ?_⟩
    have := Nat.pow_le_pow_right (n := 2) (by decide) hL
    rw [BitVec.toNat_ofNat, Nat.mod_eq_of_lt (by omega)]
  have key : ∀ c' : Word, c'.toNat < 2 ^ L →
      (∃ M ∈ xs, Tree.lteLoop T m (2 * T.depth + 2) T.root T.root c' = some (true, M) ∧ M ≤ c' ∧ ∀ y ∈ xs, y ≤ c' → y ≤ M) ∨
      (Tree.lteLoop T m (2 * T.depth + 2) T.root T.root c' = some (false, 0#64) ∧ ∀ y ∈ xs, ¬ y ≤ c') := by
    intro c' hc'
    obtain ⟨t1, t2⟩ := h.top_ex hc'
    have := h.lteLoop_spec hm2 hc' L T.root (Nat.le_refl _) t1 (Or.inl ⟨rfl, fun y hy => by have := t2 y hy; omega⟩) (2 * T.depth + 2) (by rw [h.depth]; omega)
    rw [← h.root_inode hc'] at this
    exact this
  rw [Tree.symbolLte, shl_of_lt (by omega), sbind, hlo1, sbind, hm1, sbind]
  have hp : 2 ^ L ≤ 2 ^ 63 := Nat.pow_le_pow_right (by decide) hL
  by_cases hc : (1#64 <<< L : Word) ≤ c
  · rw [if_pos hc]
    rw [BitVec.le_def, one_shl_toNat (by omega)] at hc
    have hall : ∀ y ∈ xs, y ≤ lo := fun y hy => by have := h.lt y hy; rw [BitVec.le_def]; omega
    rcases key lo (by have := Nat.two_pow_pos L; omega) with ⟨M, h1, h2, h3, h4⟩ | ⟨h1, h2⟩
    · refine Or.inl ⟨M, h1, h2, by rw [BitVec.le_def] at h3 ⊢; omega, fun y hy _ => h4 y hy (hall y hy)⟩
    · obtain ⟨y, hy⟩ := List.exists_mem_of_ne_nil _ h.ne
      exact absurd (hall y hy) (h2 y hy)
  · rw [if_neg hc]
    rw [BitVec.le_def, one_shl_toNat (by omega)] at hc
    exact key c (by omega)

/-- `symbol_gte`: the smallest symbol that is at least `c`. -/
theorem symbolGte_spec (h : Fixed T xs L tree offs) (hL : L ≤ 63) (c : Word) :
    (∃ M ∈ xs, Tree.symbolGte T L c = some (true, M) ∧ c ≤ M ∧ ∀ y ∈ xs, c ≤ y → M ≤ y) ∨ (Tree.symbolGte T L c = some (false, 0#64) ∧ ∀ y ∈ xs, ¬ c ≤ y) := by
  obtain ⟨m, hm1, hm2⟩ := h.topMask_spec
  rw [Tree.symbolGte, shl_of_lt (by omega), sbind]
  by_cases hc : (1#64 <<< L : Word) ≤ c
  · rw [if_pos hc]
    rw [BitVec.le_def, one_shl_toNat (by omega)] at hc
    refine Or.inr ⟨rfl, fun y hy hyc => ?_⟩
    have := h.lt y hy
    rw [BitVec.le_def] at hyc
    omega
  · rw [if_neg hc, hm1, sbind]
    rw [BitVec.le_def, one_shl_toNat (by omega)] at hc
    have hc' : c.toNat < 2 ^ L := by omega
    obtain ⟨t1, t2⟩ := h.top_ex hc'
    have := h.gteLoop_spec hm2 hc' L T.root (Nat.le_refl _) t1 (Or.inl ⟨rfl, fun y hy => by have := t2 y hy; omega⟩) (2 * T.depth + 2) (by rw [h.depth]; omega)
    rw [← h.root_inode hc'] at this
    exact this

end Fixed

end Sdsl.Wt
