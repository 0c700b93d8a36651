/-
  Lemmas about the LOUDS model: the degree sequence, breadth-first order, and the constructor loop.
-/
import Verif.Louds
import Verif.UtilLemmas

namespace Sdsl.Louds

open Sdsl RTree

/-! ### The bit sequence of a list of degrees -/

def bits : List Nat → List Bool
  | [] => []
  | d :: D => true :: (List.replicate d false ++ bits D)

def P (D : List Nat) (k : Nat) : Nat := k + (D.take k).sum

theorem P_succ {D : List Nat} {k d : Nat} (h : D[k]? = some d) : P D (k + 1) = P D k + 1 + d := by
  obtain ⟨hk, rfl⟩ := List.getElem?_eq_some_iff.1 h
  unfold P
  rw [← List.take_append_getElem hk, List.sum_append]
  simp only [List.sum_cons, List.sum_nil]; omega

theorem P_zero (D : List Nat) : P D 0 = 0 := by simp [P]

theorem P_cons (d : Nat) (D : List Nat) (k : Nat) : P (d :: D) (k + 1) = 1 + d + P D k := by
  simp [P]; omega

theorem bits_length : ∀ (D : List Nat), (bits D).length = P D D.length
  | [] => rfl
  | d :: D => by
    rw [List.length_cons, P_cons, ← bits_length D]
    simp [bits]; omega

theorem cnt_append (tb : Bool) (A B : List Bool) : ∀ i, Bv.cnt tb (A ++ B) (A.length + i) = Bv.cnt tb A A.length + Bv.cnt tb B i := by
  induction A with
  | nil => intro i; simp [Bv.cnt_zero]
  | cons a A ih =>
    intro i
    rw [List.cons_append, List.length_cons, show A.length + 1 + i = (A.length + i) + 1 by omega, Bv.cnt_cons, Bv.cnt_cons, ih i]
    omega

theorem bit_append (A B : List Bool) (i : Nat) : Bv.bit (A ++ B) (A.length + i) = Bv.bit B i := by
  rw [Bv.bit, Bv.bit, List.getD, List.getD, List.getElem?_append_right (by omega), Nat.add_sub_cancel_left]

theorem bit_append_left {A B : List Bool} {i : Nat} (h : i < A.length) : Bv.bit (A ++ B) i = Bv.bit A i := by
  simp [Bv.bit, List.getD, List.getElem?_append_left h]

theorem cnt_append_left {tb : Bool} {A B : List Bool} : ∀ {i : Nat}, i ≤ A.length → Bv.cnt tb (A ++ B) i = Bv.cnt tb A i
  | 0, _ => rfl
  | i + 1, h => by
    rw [Bv.cnt_succ, Bv.cnt_succ, cnt_append_left (by omega), bit_append_left (by omega)]

theorem cnt_replicate : ∀ (d i : Nat), Bv.cnt true (List.replicate d false) i = 0
  | _, 0 => rfl
  | d, i + 1 => by
    rw [Bv.cnt_succ, cnt_replicate d i, Bv.bit_replicate]; rfl

/-- In the block of node `k`: its 1-bit, then its zeros. -/
theorem bits_block {D : List Nat} : ∀ {k d : Nat}, D[k]? = some d →
    Bv.bit (bits D) (P D k) = true ∧ (∀ i, i < d → Bv.bit (bits D) (P D k + 1 + i) = false) ∧
    Bv.cnt true (bits D) (P D k) = k ∧ (∀ i, i ≤ d → Bv.cnt true (bits D) (P D k + 1 + i) = k + 1) := by
  induction D with
  | nil => intro k d h; simp at h
  | cons e D ih =>
    intro k d h
    cases k with
    | zero =>
      simp only [List.getElem?_cons_zero, Option.some.injEq] at h
      subst h
      rw [P_zero]
      refine ⟨rfl, ?_, rfl, ?_⟩
      · intro i hi
        rw [bits, show 0 + 1 + i = i + 1 by omega, Bv.bit_cons_succ, bit_append_left (by simpa using hi), Bv.bit_replicate]
      · intro i hi
        rw [bits, show 0 + 1 + i = i + 1 by omega, Bv.cnt_cons, cnt_append_left (by simpa using hi), cnt_replicate]
        rfl
    | succ k =>
      rw [List.getElem?_cons_succ] at h
      obtain ⟨h1, h2, h3, h4⟩ := ih h
      have hl : (List.replicate e false).length = e := by simp
      have hb : ∀ x, Bv.bit (bits (e :: D)) (1 + e + x) = Bv.bit (bits D) x := by
        intro x
        rw [bits, show 1 + e + x = (e + x) + 1 by omega, Bv.bit_cons_succ]
        have := bit_append (List.replicate e false) (bits D) x
        rwa [hl] at this
      have hc : ∀ x, Bv.cnt true (bits (e :: D)) (1 + e + x) = 1 + Bv.cnt true (bits D) x := by
        intro x
        rw [bits, show 1 + e + x = (e + x) + 1 by omega, Bv.cnt_cons]
        have := cnt_append true (List.replicate e false) (bits D) x
        rw [hl, cnt_replicate] at this
        rw [this]; simp
      rw [P_cons]
      refine ⟨by rw [hb]; exact h1, ?_, by rw [hc, h3]; omega, ?_⟩
      · intro i hi
        rw [show 1 + e + P D k + 1 + i = 1 + e + (P D k + 1 + i) by omega, hb]; exact h2 i hi
      · intro i hi
        rw [show 1 + e + P D k + 1 + i = 1 + e + (P D k + 1 + i) by omega, hc, h4 i hi]; omega

theorem P_le {D : List Nat} {k d : Nat} (h : D[k]? = some d) : P D k + 1 + d ≤ (bits D).length := by
  rw [bits_length]
  obtain ⟨hk, rfl⟩ := List.getElem?_eq_some_iff.1 h
  rw [← P_succ h]
  unfold P
  have : (D.take (k + 1)).sum ≤ (D.take D.length).sum := by
    have e : D.take D.length = D.take (k + 1) ++ D.drop (k + 1) := by simp
    rw [e, List.sum_append]; omega
  omega

theorem select_one {D : List Nat} {k d : Nat} (h : D[k]? = some d) : Bv.select true (bits D) (k + 1) = some (P D k) := by
  obtain ⟨h1, _, h3, _⟩ := bits_block h
  have := Bv.select_eq (tb := true) (B := bits D) (p := P D k) (by have := P_le h; omega) h1
  rwa [h3] at this

theorem select_zero {D : List Nat} {k d i : Nat} (h : D[k]? = some d) (hi : i < d) :
    Bv.select false (bits D) ((D.take k).sum + i + 1) = some (P D k + 1 + i) := by
  obtain ⟨_, h2, _, h4⟩ := bits_block h
  have := Bv.select_eq (tb := false) (B := bits D) (p := P D k + 1 + i) (by have := P_le h; omega) (h2 i hi)
  have hc := Bv.cnt_compl (bits D) (P D k + 1 + i)
  rw [h4 i (by omega)] at hc
  rw [← this]
  unfold P at hc
  congr 1
  unfold P
  omega

/-! ### Breadth-first order -/

/-- The children of an addressed node. -/
def kids (x : List Nat × RTree) : List (List Nat × RTree) := x.2.children.zipIdx.map fun c => (x.1 ++ [c.2], c.1)

theorem kids_length (x : List Nat × RTree) : (kids x).length = x.2.children.length := by simp [kids]

theorem kids_get (x : List Nat × RTree) (i : Nat) : (kids x)[i]? = (x.2.children[i]?).map fun c => (x.1 ++ [i], c) := by
  simp [kids, List.getElem?_map, List.getElem?_zipIdx]
  cases x.2.children[i]? <;> simp

theorem kids_map (x : List Nat × RTree) : (kids x).map Prod.snd = x.2.children := by
  simp [kids, List.map_map]
  apply List.ext_getElem?
  intro i
  simp [List.getElem?_map, List.getElem?_zipIdx]
  cases x.2.children[i]? <;> rfl

theorem mem_kids {x y : List Nat × RTree} : y ∈ kids x ↔ ∃ i, x.2.children[i]? = some y.2 ∧ y.1 = x.1 ++ [i] := by
  rw [List.mem_iff_getElem?]
  constructor
  · rintro ⟨i, h⟩
    rw [kids_get] at h
    cases hc : x.2.children[i]? with
    | none => rw [hc] at h; simp at h
    | some c =>
      rw [hc] at h
      simp only [Option.map_some, Option.some.injEq] at h
      exact ⟨i, by rw [← h]; exact hc, by rw [← h]⟩
  · rintro ⟨i, h, e⟩
    refine ⟨i, ?_⟩
    rw [kids_get, h]
    simp [← e]

/-- Breadth-first traversal of a queue. -/
def bfs : Nat → List (List Nat × RTree) → List (List Nat × RTree)
  | _, [] => []
  | 0, q => q
  | n + 1, x :: q => x :: bfs n (q ++ kids x)

theorem nodesL_append : ∀ (a b : List RTree), nodesL (a ++ b) = nodesL a + nodesL b
  | [], b => by simp [nodesL]
  | t :: a, b => by rw [List.cons_append, nodesL, nodesL, nodesL_append a b]; omega

theorem nodes_eq (t : RTree) : t.nodes = 1 + nodesL t.children := by
  cases t; rw [RTree.nodes]; rfl

theorem nodes_pos (t : RTree) : 1 ≤ t.nodes := by rw [nodes_eq]; omega

def qn (q : List (List Nat × RTree)) : Nat := nodesL (q.map Prod.snd)

theorem qn_step (x : List Nat × RTree) (q : List (List Nat × RTree)) : qn (q ++ kids x) + 1 = qn (x :: q) := by
  unfold qn
  rw [List.map_append, kids_map, nodesL_append, List.map_cons, nodesL, nodes_eq]; omega

theorem bfs_length : ∀ (n : Nat) (q : List (List Nat × RTree)), qn q ≤ n → (bfs n q).length = qn q
  | 0, [], _ => rfl
  | _ + 1, [], _ => rfl
  | 0, x :: q, h => by have := qn_step x q; omega
  | n + 1, x :: q, h => by
    have := qn_step x q
    rw [bfs, List.length_cons, bfs_length n _ (by omega), this]

/-- The queue is a prefix of the traversal. -/
theorem bfs_prefix : ∀ (n : Nat) (q : List (List Nat × RTree)) (j : Nat), j < q.length → (bfs n q)[j]? = q[j]?
  | _, [], _, h => by simp at h
  | 0, _ :: _, _, _ => by rw [bfs]; simp
  | n + 1, x :: q, j, h => by
    rw [bfs]
    cases j with
    | zero => rfl
    | succ j =>
      simp only [List.length_cons] at h
      rw [List.getElem?_cons_succ, List.getElem?_cons_succ, bfs_prefix n _ j (by rw [List.length_append]; omega),
        List.getElem?_append_left (by omega)]

def deg (x : List Nat × RTree) : Nat := x.2.children.length

/-- Where the children are found in the traversal. -/
theorem bfs_child : ∀ (n : Nat) (q : List (List Nat × RTree)), qn q ≤ n → ∀ (k : Nat) (x : List Nat × RTree) (i : Nat) (c : RTree),
    (bfs n q)[k]? = some x → x.2.children[i]? = some c →
    (bfs n q)[q.length + (((bfs n q).map deg).take k).sum + i]? = some (x.1 ++ [i], c)
  | 0, [], _, k, x, i, c, h, _ => by simp [bfs] at h
  | _ + 1, [], _, k, x, i, c, h, _ => by simp [bfs] at h
  | 0, y :: q, hn, k, x, i, c, h, _ => by have := qn_step y q; omega
  | n + 1, y :: q, hn, k, x, i, c, h, hc => by
    have hq := qn_step y q
    rw [bfs] at h ⊢
    cases k with
    | zero =>
      simp only [List.getElem?_cons_zero, Option.some.injEq] at h
      subst h
      have hi : i < y.2.children.length := (List.getElem?_eq_some_iff.1 hc).1
      rw [List.take_zero, List.sum_nil, List.length_cons, show q.length + 1 + 0 + i = (q.length + i) + 1 by omega,
        List.getElem?_cons_succ, bfs_prefix _ _ _ (by rw [List.length_append, kids_length]; omega),
        List.getElem?_append_right (by omega), Nat.add_sub_cancel_left, kids_get, hc]
      rfl
    | succ k =>
      rw [List.getElem?_cons_succ] at h
      have := bfs_child n (q ++ kids y) (by omega) k x i c h hc
      rw [List.length_append, kids_length] at this
      rw [List.map_cons, List.take_succ_cons, List.sum_cons, List.length_cons]
      rw [show q.length + 1 + (deg y + (List.take k (List.map deg (bfs n (q ++ kids y)))).sum) + i
        = (q.length + y.2.children.length + (List.take k (List.map deg (bfs n (q ++ kids y)))).sum + i) + 1 by unfold deg; omega,
        List.getElem?_cons_succ]
      exact this

/-- Number of visited nodes and sum of the degrees. -/
theorem bfs_sum : ∀ (n : Nat) (q : List (List Nat × RTree)), qn q ≤ n → q.length + ((bfs n q).map deg).sum = (bfs n q).length
  | 0, [], _ => rfl
  | _ + 1, [], _ => rfl
  | 0, y :: q, hn => by have := qn_step y q; omega
  | n + 1, y :: q, hn => by
    have hq := qn_step y q
    have := bfs_sum n (q ++ kids y) (by omega)
    rw [List.length_append, kids_length] at this
    rw [bfs, List.map_cons, List.sum_cons, List.length_cons, List.length_cons]
    unfold deg at this ⊢
    omega

theorem sub_snoc : ∀ (t : RTree) (p : List Nat) (i : Nat), sub t (p ++ [i]) = (sub t p).bind fun s => s.children[i]?
  | .node cs, [], i => by
    simp only [List.nil_append, sub, Option.bind_some, children]
    cases cs[i]? <;> simp
  | .node cs, j :: p, i => by
    simp only [List.cons_append, sub]
    cases cs[j]? with
    | none => simp
    | some c => simp only [Option.bind_some]; exact sub_snoc c p i

/-- Every visited entry is a node of the tree under its path. -/
theorem bfs_sub (t : RTree) : ∀ (n : Nat) (q : List (List Nat × RTree)), (∀ x ∈ q, sub t x.1 = some x.2) →
    ∀ x ∈ bfs n q, sub t x.1 = some x.2
  | 0, [], _, x, hx => by simp [bfs] at hx
  | _ + 1, [], _, x, hx => by simp [bfs] at hx
  | 0, y :: q, h, x, hx => by rw [bfs] at hx; exact h x hx; simp
  | n + 1, y :: q, h, x, hx => by
    rw [bfs, List.mem_cons] at hx
    rcases hx with rfl | hx
    · exact h _ (by simp)
    · refine bfs_sub t n _ ?_ x hx
      intro z hz
      rw [List.mem_append] at hz
      rcases hz with hz | hz
      · exact h z (by simp [hz])
      · obtain ⟨i, h1, h2⟩ := mem_kids.1 hz
        rw [h2, sub_snoc, h y (by simp)]
        exact h1

/-! ### Level order -/

/-- Order of the paths in level order. -/
def LevelLt (p q : List Nat) : Prop := p.length < q.length ∨ (p.length = q.length ∧ p < q)

theorem LevelLt.trans {a b c : List Nat} (h1 : LevelLt a b) (h2 : LevelLt b c) : LevelLt a c := by
  rcases h1 with h1 | ⟨h1, h1'⟩ <;> rcases h2 with h2 | ⟨h2, h2'⟩
  · left; omega
  · left; omega
  · left; omega
  · right; exact ⟨by omega, List.lt_trans h1' h2'⟩

theorem LevelLt.irrefl (a : List Nat) : ¬ LevelLt a a := by
  rintro (h | ⟨_, h⟩)
  · omega
  · exact List.lt_irrefl a h

theorem LevelLt.child (a : List Nat) (i : Nat) : LevelLt a (a ++ [i]) := by left; simp

theorem append_lt : ∀ {a b : List Nat}, a.length = b.length → a < b → ∀ c d : List Nat, a ++ c < b ++ d
  | [], [], _, h, _, _ => absurd h (List.lt_irrefl [])
  | x :: a, y :: b, hl, h, c, d => by
    rw [List.cons_append, List.cons_append]
    rw [List.cons_lt_cons_iff] at h ⊢
    rcases h with h | ⟨h1, h2⟩
    · exact Or.inl h
    · exact Or.inr ⟨h1, append_lt (by simpa using hl) h2 c d⟩

theorem LevelLt.snoc {a b : List Nat} (h : LevelLt a b) (i j : Nat) : LevelLt (a ++ [i]) (b ++ [j]) := by
  rcases h with h | ⟨h, h'⟩
  · left; simp [h]
  · right; exact ⟨by simp [h], append_lt h h' _ _⟩

theorem LevelLt.last (a : List Nat) {i j : Nat} (h : i < j) : LevelLt (a ++ [i]) (a ++ [j]) := by
  right
  refine ⟨by simp, ?_⟩
  induction a with
  | nil => simpa [List.cons_lt_cons_iff] using h
  | cons x a ih => rw [List.cons_append, List.cons_append, List.cons_lt_cons_iff]; exact Or.inr ⟨rfl, ih⟩

theorem bfs_gt (a : List Nat) : ∀ (n : Nat) (q : List (List Nat × RTree)), (∀ x ∈ q, LevelLt a x.1) → ∀ x ∈ bfs n q, LevelLt a x.1
  | 0, [], _, x, hx => by simp [bfs] at hx
  | _ + 1, [], _, x, hx => by simp [bfs] at hx
  | 0, y :: q, h, x, hx => by rw [bfs] at hx; exact h x hx; simp
  | n + 1, y :: q, h, x, hx => by
    rw [bfs, List.mem_cons] at hx
    rcases hx with rfl | hx
    · exact h _ (by simp)
    · refine bfs_gt a n _ ?_ x hx
      intro z hz
      rw [List.mem_append] at hz
      rcases hz with hz | hz
      · exact h z (by simp [hz])
      · obtain ⟨i, h1, h2⟩ := mem_kids.1 hz
        rw [h2]
        exact (h y (by simp)).trans (LevelLt.child _ _)

theorem kids_pairwise (x : List Nat × RTree) : (kids x).Pairwise fun a b => LevelLt a.1 b.1 := by
  rw [List.pairwise_iff_getElem]
  intro i j hi hj hij
  have e1 := kids_get x i
  have e2 := kids_get x j
  rw [List.getElem?_eq_getElem hi] at e1
  rw [List.getElem?_eq_getElem hj] at e2
  rw [kids_length] at hi hj
  rw [List.getElem?_eq_getElem hi] at e1
  rw [List.getElem?_eq_getElem hj] at e2
  simp only [Option.map_some, Option.some.injEq] at e1 e2
  rw [e1, e2]
  exact LevelLt.last _ hij

theorem bfs_sorted : ∀ (n : Nat) (q : List (List Nat × RTree)), qn q ≤ n → q.Pairwise (fun a b => LevelLt a.1 b.1) →
    (∀ x ∈ q, ∀ y ∈ q, ∀ i, LevelLt x.1 (y.1 ++ [i])) → (bfs n q).Pairwise (fun a b => LevelLt a.1 b.1)
  | 0, [], _, _, _ => by simp [bfs]
  | _ + 1, [], _, _, _ => by simp [bfs]
  | 0, y :: q, hn, _, _ => by have := qn_step y q; omega
  | n + 1, h :: q, hn, hp, hj => by
    have hq := qn_step h q
    rw [List.pairwise_cons] at hp
    rw [bfs, List.pairwise_cons]
    constructor
    · apply bfs_gt
      intro z hz
      rw [List.mem_append] at hz
      rcases hz with hz | hz
      · exact hp.1 z hz
      · obtain ⟨i, _, e⟩ := mem_kids.1 hz
        rw [e]; exact LevelLt.child _ _
    · apply bfs_sorted n _ (by omega)
      · rw [List.pairwise_append]
        refine ⟨hp.2, kids_pairwise h, ?_⟩
        intro a ha b hb
        obtain ⟨i, _, e⟩ := mem_kids.1 hb
        rw [e]
        exact hj a (by simp [ha]) h (by simp) i
      · intro x hx y hy i
        rw [List.mem_append] at hx hy
        rcases hx with hx | hx <;> rcases hy with hy | hy
        · exact hj x (by simp [hx]) y (by simp [hy]) i
        · obtain ⟨j, _, e⟩ := mem_kids.1 hy
          rw [e]
          exact (hj x (by simp [hx]) h (by simp) j).trans (LevelLt.child _ _)
        · obtain ⟨j, _, e⟩ := mem_kids.1 hx
          rw [e]
          exact (hp.1 y hy).snoc j i
        · obtain ⟨j, _, e⟩ := mem_kids.1 hx
          obtain ⟨j', _, e'⟩ := mem_kids.1 hy
          rw [e, e']
          left; simp

/-! ### The constructor -/

theorem replicate_set (pre : List Bool) (m : Nat) :
    (pre ++ List.replicate (m + 1) false).set pre.length true = pre ++ true :: List.replicate m false := by
  rw [List.set_append_right _ _ (Nat.le_refl _), Nat.sub_self, List.replicate_succ]
  rfl

theorem fill_eq : ∀ (n : Nat) (q : List (List Nat × RTree)), qn q ≤ n → ∀ (pre : List Bool) (m : Nat),
    (bits ((bfs n q).map deg)).length ≤ m →
    fill n (q.map Prod.snd) (pre ++ List.replicate m false) pre.length =
      some (pre ++ bits ((bfs n q).map deg) ++ List.replicate (m - (bits ((bfs n q).map deg)).length) false,
        pre.length + (bits ((bfs n q).map deg)).length)
  | 0, [], _, pre, m, _ => by simp [fill, bfs, bits]
  | _ + 1, [], _, pre, m, _ => by simp [fill, bfs, bits]
  | 0, y :: q, hn, _, _, _ => by have := qn_step y q; omega
  | n + 1, y :: q, hn, pre, m, hm => by
    have hq := qn_step y q
    have eb : bits ((bfs (n + 1) (y :: q)).map deg) = true :: (List.replicate (deg y) false ++ bits ((bfs n (q ++ kids y)).map deg)) := by
      rw [bfs, List.map_cons, bits]
    rw [eb] at hm ⊢
    simp only [List.length_cons, List.length_append, List.length_replicate] at hm
    obtain ⟨m', rfl⟩ : ∃ m', m = deg y + 1 + m' := ⟨m - (deg y + 1), by omega⟩
    rw [List.map_cons, fill, Bv.set_of_lt (by simp; omega), sbind, show deg y + 1 + m' = (deg y + m') + 1 by omega, replicate_set]
    dsimp only
    have ih := fill_eq n (q ++ kids y) (by omega) (pre ++ true :: List.replicate (deg y) false) m' (by omega)
    rw [List.map_append, kids_map] at ih
    have e1 : pre ++ true :: List.replicate (deg y + m') false = pre ++ true :: List.replicate (deg y) false ++ List.replicate m' false := by
      simp [List.replicate_append_replicate]
    have e2 : pre.length + 1 + ((List.map Prod.snd q ++ y.2.children).length + 1 - (y.2 :: List.map Prod.snd q).length)
        = (pre ++ true :: List.replicate (deg y) false).length := by
      simp only [deg, List.length_append, List.length_cons, List.length_replicate, List.length_map]; omega
    rw [e1, e2, ih]
    simp [List.append_assoc]
    constructor
    · omega
    · omega

end Sdsl.Louds
