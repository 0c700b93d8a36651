/-
  The construction of a k²-tree from a matrix (K2.lean).
-/
import Verif.K2Query

namespace Sdsl.K2

open Csa Spec

/-- The nodes at depth `d` below a node. -/
def lev (E : Nat → Nat → Bool) (k : Nat) : Nat → Nd → List Nd
  | 0, x => [x]
  | d + 1, x => (kids E k x).flatMap (lev E k d)

/-- The blocks that the call for a node at level `l` adds at level `j`. -/
def adds (E : Nat → Nat → Bool) (k : Nat) (x : Nd) (l j : Nat) : List (List Bool) := if l ≤ j then (lev E k (j - l) x).map (bits E k) else []

/-- The lists of blocks given by a function. -/
def mk (h : Nat) (A : Nat → List (List Bool)) : List (List (List Bool)) := (List.range (h + 1)).map A

section
variable {E : Nat → Nat → Bool} {k : Nat}

theorem lev_succ : ∀ d x, lev E k (d + 1) x = (lev E k d x).flatMap (kids E k)
  | 0, x => by simp [lev]
  | d + 1, x => by
    rw [lev, List.flatMap_congr (fun y _ => lev_succ d y), lev, List.flatMap_assoc]

theorem lev_e : ∀ d x y, y ∈ lev E k d x → y.e = x.e - d
  | 0, x, y, h => by
    rw [lev, List.mem_singleton] at h
    rw [h]; rfl
  | d + 1, x, y, h => by
    rw [lev, List.mem_flatMap] at h
    obtain ⟨z, h1, h2⟩ := h
    have := lev_e d z y h2
    rw [kids, List.mem_map] at h1
    obtain ⟨it, _, rfl⟩ := h1
    rw [this, kid]
    dsimp only
    omega

theorem kids_length (x : Nd) : (kids E k x).length ≤ k * k := by
  rw [kids, List.length_map]
  exact Nat.le_trans (List.length_filter_le _ _) (by simp)

theorem flatMap_le {α β : Type} {f : α → List β} {n : Nat} (h : ∀ x, (f x).length ≤ n) : ∀ X : List α, (X.flatMap f).length ≤ X.length * n
  | [] => by simp
  | x :: X => by
    have := h x
    have := flatMap_le h X
    rw [List.flatMap_cons, List.length_append, List.length_cons, Nat.succ_mul]
    omega

theorem lev_length : ∀ d x, (lev E k d x).length ≤ (k * k) ^ d
  | 0, x => by simp [lev]
  | d + 1, x => by
    rw [lev_succ, Nat.pow_succ]
    exact Nat.le_trans (flatMap_le kids_length _) (Nat.mul_le_mul_right _ (lev_length d x))

/-- The bits of a node tell whether its square has a one. -/
theorem has_bits (hk : 2 ≤ k) (x : Nd) : (bits E k x).any id = has E x.r x.c (k ^ (x.e + 1)) := by
  rw [Bool.eq_iff_iff, has_iff]
  simp only [List.any_eq_true, bits, List.mem_map, List.mem_range, id]
  have hpos : 0 < k ^ x.e := Nat.pow_pos (by omega)
  have hsq : k ^ (x.e + 1) = k * k ^ x.e := by rw [Nat.pow_succ, Nat.mul_comm]
  constructor
  · rintro ⟨b, ⟨it, h1, rfl⟩, h2⟩
    obtain ⟨a, b, h3, h4, h5⟩ := has_iff.1 h2
    have d1 : it / k < k := Nat.div_lt_of_lt_mul h1
    have d2 : it % k < k := Nat.mod_lt _ (by omega)
    have m1 := Nat.mul_le_mul_right (k ^ x.e) (show it / k + 1 ≤ k from d1)
    have m2 := Nat.mul_le_mul_right (k ^ x.e) (show it % k + 1 ≤ k from d2)
    rw [Nat.succ_mul] at m1 m2
    refine ⟨it / k * k ^ x.e + a, it % k * k ^ x.e + b, by omega, by omega, ?_⟩
    rw [← Nat.add_assoc, ← Nat.add_assoc]
    exact h5
  · rintro ⟨a, b, h3, h4, h5⟩
    obtain ⟨c1, c2, c3⟩ := chunk_lt (div_lt_k h3) (div_lt_k h4)
    refine ⟨_, ⟨k * (a / k ^ x.e) + b / k ^ x.e, c1, rfl⟩, has_iff.2 ⟨a % k ^ x.e, b % k ^ x.e, Nat.mod_lt _ hpos, Nat.mod_lt _ hpos, ?_⟩⟩
    rw [c2, c3, Nat.add_assoc, Nat.div_add_mod', Nat.add_assoc, Nat.div_add_mod']
    exact h5

variable {h : Nat}

theorem bitsLoop_ok {f : Nat → List (List (List Bool)) → Option (Bool × List (List (List Bool)))} {b : Nat → Bool} {g : Nat → Nat → List (List Bool)}
    (hf : ∀ it A, f it (mk h A) = some (b it, mk h (fun j => A j ++ if b it then g it j else []))) :
    ∀ c it A, bitsLoop f c it (mk h A) = some ((List.range' it c).map b, mk h (fun j => A j ++ ((List.range' it c).filter b).flatMap (g · j)))
  | 0, it, A => by simp [bitsLoop]
  | c + 1, it, A => by
    rw [bitsLoop, hf, sbind]
    dsimp only
    rw [bitsLoop_ok hf c (it + 1), sbind, List.range'_succ]
    dsimp only
    rw [List.map_cons]
    congr 3
    funext j
    rw [List.append_assoc, List.filter_cons]
    cases b it <;> simp

theorem pushBlock_ok {A : Nat → List (List Bool)} {l : Nat} {b : List Bool} (hl : l ≤ h) : pushBlock (mk h A) l b = some (mk h (fun j => A j ++ if j = l then [b] else [])) := by
  have h1 : (mk h A)[l]? = some (A l) := by
    rw [mk, List.getElem?_map, List.getElem?_range (by omega)]; rfl
  rw [pushBlock, h1]
  dsimp only
  congr 1
  apply List.ext_getElem?
  intro j
  rw [List.getElem?_set, mk, mk, List.getElem?_map, List.getElem?_map, List.length_map, List.length_range, if_pos (show l < h + 1 by omega)]
  split
  · rename_i hj
    subst hj
    rw [List.getElem?_range (by omega)]
    simp
  · rename_i hj
    by_cases g : j < h + 1
    · rw [List.getElem?_range g]
      simp [Ne.symm hj]
    · rw [List.getElem?_eq_none (by simp; omega)]; rfl

/-- The matrix as a function. -/
def ofMat (M : List (List Int)) (i j : Nat) : Bool := (M[i]?.bind (fun row => row[j]?)) == some 1

theorem leafBit_ok {M : List (List Int)} (hM : ∀ row ∈ M, row.length = M.length) (p q i j : Nat) : leafBit M p q i j = some (ofMat M (p + i) (q + j)) := by
  rw [leafBit, ofMat]
  split
  · rename_i g
    rw [List.getElem?_eq_getElem g.1, sbind, List.getElem?_eq_getElem (by rw [hM _ (List.getElem_mem _)]; exact g.2), sbind, Option.bind_some, List.getElem?_eq_getElem (by rw [hM _ (List.getElem_mem _)]; exact g.2)]
    show some _ = some _
    congr 1
  · rename_i g
    by_cases g1 : p + i < M.length
    · rw [List.getElem?_eq_getElem g1, Option.bind_some, List.getElem?_eq_none (by rw [hM _ (List.getElem_mem _)]; omega)]
      rfl
    · rw [List.getElem?_eq_none (by omega)]
      rfl

theorem buildMatrix_ok {M : List (List Int)} (hM : ∀ row ∈ M, row.length = M.length) (hk : 2 ≤ k) : ∀ r l p q A, l + r = h →
    buildMatrix M k r (k ^ (r + 1)) l p q (mk h A) = some (has (ofMat M) p q (k ^ (r + 1)), mk h (fun j => A j ++ if has (ofMat M) p q (k ^ (r + 1)) then adds (ofMat M) k ⟨p, q, r⟩ l j else [])) := by
  intro r
  induction r with
  | zero =>
    intro l p q A hl
    have hb := has_bits (E := ofMat M) hk ⟨p, q, 0⟩
    have h1 : bitsLoop (fun it acc => do let x ← leafBit M p q (it / k) (it % k); pure (x, acc)) (k * k) 0 (mk h A) = some (bits (ofMat M) k ⟨p, q, 0⟩, mk h A) := by
      rw [bitsLoop_ok (b := cbit (ofMat M) k ⟨p, q, 0⟩) (g := fun _ _ => [])]
      · rw [bits, List.range_eq_range']
        congr 3
        funext j
        simp
      · intro it A
        rw [leafBit_ok hM, sbind]
        simp [cbit, has]
    rw [buildMatrix, h1, sbind]
    dsimp only
    rw [hb]
    dsimp only
    cases has (ofMat M) p q (k ^ (0 + 1)) with
    | false => simp
    | true =>
      rw [if_pos rfl, pushBlock_ok (by omega), sbind]
      show some _ = some _
      congr 2
      apply List.map_congr_left
      intro j hj
      rw [List.mem_range] at hj
      rw [if_pos rfl, adds]
      congr 1
      by_cases g : j = l
      · rw [if_pos g, if_pos (by omega), g, Nat.sub_self]; rfl
      · rw [if_neg g, if_neg (by omega)]
  | succ r ih =>
    intro l p q A hl
    have hb := has_bits (E := ofMat M) hk ⟨p, q, r + 1⟩
    have hq : k ^ (r + 1 + 1) / k = k ^ (r + 1) := by rw [Nat.pow_succ, Nat.mul_div_cancel _ (by omega)]
    have h1 : bitsLoop (fun it acc => buildMatrix M k r (k ^ (r + 1)) (l + 1) (p + it / k * (k ^ (r + 1))) (q + it % k * (k ^ (r + 1))) acc) (k * k) 0 (mk h A) = some (bits (ofMat M) k ⟨p, q, r + 1⟩, mk h (fun j => A j ++ (kids (ofMat M) k ⟨p, q, r + 1⟩).flatMap (adds (ofMat M) k · (l + 1) j))) := by
      rw [bitsLoop_ok (b := cbit (ofMat M) k ⟨p, q, r + 1⟩) (g := fun it j => adds (ofMat M) k (kid k ⟨p, q, r + 1⟩ it) (l + 1) j)]
      · rw [bits, List.range_eq_range', kids]
        congr 3
        funext j
        rw [List.flatMap_map, List.range_eq_range']
      · intro it A
        rw [ih (l + 1) _ _ A (by omega)]
        rfl
    rw [buildMatrix, hq, h1, sbind]
    dsimp only
    rw [hb]
    dsimp only
    cases hh : has (ofMat M) p q (k ^ (r + 1 + 1)) with
    | false =>
      rw [if_neg (by simp)]
      show some _ = some _
      congr 3
      funext j
      rw [if_neg (by simp), show kids (ofMat M) k ⟨p, q, r + 1⟩ = [] from ?_]
      · rfl
      · rw [kids, List.map_eq_nil_iff, List.filter_eq_nil_iff]
        intro it hit hc
        rw [hh, List.any_eq_false] at hb
        exact hb _ (List.mem_map.2 ⟨it, hit, rfl⟩) hc
    | true =>
      rw [if_pos rfl, pushBlock_ok (by omega), sbind]
      show some _ = some _
      congr 2
      apply List.map_congr_left
      intro j hj
      rw [List.mem_range] at hj
      rw [if_pos rfl, List.append_assoc]
      congr 1
      have ha : ∀ X : List Nd, X.flatMap (adds (ofMat M) k · (l + 1) j) = if l + 1 ≤ j then (X.flatMap (lev (ofMat M) k (j - (l + 1)))).map (bits (ofMat M) k) else [] := by
        intro X
        by_cases g : l + 1 ≤ j
        · rw [if_pos g, List.map_flatMap]
          apply List.flatMap_congr
          intro y _
          rw [adds, if_pos g]
        · rw [if_neg g, List.flatMap_eq_nil_iff]
          intro y _
          rw [adds, if_neg g]
      rw [ha, adds]
      by_cases g : j = l
      · rw [if_neg (by omega), if_pos g, if_pos (by omega), g, Nat.sub_self]; rfl
      · rw [if_neg g, List.append_nil]
        by_cases g2 : l + 1 ≤ j
        · rw [if_pos g2, if_pos (by omega), show j - l = (j - (l + 1)) + 1 by omega, lev]
        · rw [if_neg g2, if_neg (by omega)]

/-- The nodes of the first levels. -/
theorem levels_order (x : Nd) : ∀ m, (List.range (m + 1)).flatMap (lev E k · x) = x :: ((List.range m).flatMap (lev E k · x)).flatMap (kids E k)
  | m => by
    rw [List.range_succ_eq_map, List.flatMap_cons, List.flatMap_map, lev, List.flatMap_assoc, List.singleton_append]
    congr 1
    apply List.flatMap_congr
    intro d _
    rw [Nat.succ_eq_add_one, lev_succ]

theorem shape_levels (hh : 1 ≤ h) : Shape E k h ((List.range (h - 1)).flatMap (lev E k · ⟨0, 0, h - 1⟩)) (lev E k (h - 1) ⟨0, 0, h - 1⟩)
    (((List.range (h - 1)).flatMap (lev E k · ⟨0, 0, h - 1⟩)).flatMap (bits E k)) ((lev E k (h - 1) ⟨0, 0, h - 1⟩).flatMap (bits E k)) := by
  refine ⟨rfl, rfl, ?_, ?_, ?_⟩
  · rw [← levels_order, List.range_succ, List.flatMap_append]
    simp
  · intro x hx
    obtain ⟨d, h1, h2⟩ := List.mem_flatMap.1 hx
    rw [List.mem_range] at h1
    have := lev_e d _ _ h2
    dsimp only at this
    omega
  · intro x hx
    have := lev_e _ _ _ hx
    dsimp only at this
    omega

theorem levels_length (hk : 2 ≤ k) (x : Nd) : ∀ m, ((List.range m).flatMap (lev E k · x)).length ≤ (k * k) ^ m
  | 0 => by simp
  | m + 1 => by
    have h1 := levels_length hk x m
    have h2 := lev_length (E := E) (k := k) m x
    have h3 : 2 ≤ k * k := by have := Nat.mul_le_mul hk hk; omega
    have h4 := Nat.mul_le_mul_left ((k * k) ^ m) h3
    rw [List.range_succ, List.flatMap_append, List.length_append, Nat.pow_succ]
    simp only [List.flatMap_cons, List.flatMap_nil, List.append_nil]
    omega

/-- The constructor. -/
theorem newMatrix_eq {M : List (List Int)} (hM : ∀ row ∈ M, row.length = M.length) (hM1 : 1 ≤ M.length) (hk : 2 ≤ k) {lg : Nat} (hh : h = if M.length < k then 1 else lg) (h1 : 1 ≤ h) (hs : k ^ h < 2 ^ 31) :
    ∃ T L, (newMatrix k lg M = if T.length ≥ 2 ^ 31 ∨ L.length ≥ 2 ^ 31 then none else some ⟨T, L, k, h⟩) ∧ (T.length ≤ (k * k) ^ h ∧ L.length ≤ (k * k) ^ h) ∧
      (if has (ofMat M) 0 0 (k ^ h) then ∃ I F, Shape (ofMat M) k h I F T L else T = [] ∧ L = []) := by
  have hb := buildMatrix_ok (h := h) hM hk (h - 1) 1 0 0 (fun _ => []) (by omega)
  rw [show h - 1 + 1 = h by omega, show mk h (fun _ => []) = List.replicate (h + 1) [] by rw [mk, List.map_const', List.length_range]] at hb
  have hget : ∀ A : Nat → List (List Bool), (mk h A)[h]? = some (A h) := by
    intro A
    rw [mk, List.getElem?_map, List.getElem?_range (by omega)]; rfl
  have hmid : ∀ A : Nat → List (List Bool), (((mk h A).take h).drop 1).flatten = (List.range (h - 1)).flatMap (fun d => A (d + 1)) := by
    intro A
    rw [mk, ← List.map_take, ← List.map_drop, List.take_range, show min h (h + 1) = (h - 1) + 1 by omega, List.range_succ_eq_map, List.drop_one, List.tail_cons, List.map_map, List.flatMap_def]
    rfl
  rw [newMatrix, if_neg (by omega)]
  dsimp only
  rw [← hh, fpow_eq (by omega), sbind, if_neg (by omega), hb, sbind]
  dsimp only
  rw [hget, sbind, hmid]
  refine ⟨_, _, rfl, ?_⟩
  cases hhas : has (ofMat M) 0 0 (k ^ h) with
  | false =>
    have hnil : (List.range (h - 1)).flatMap (fun _ => ([] : List (List Bool))) = [] := List.flatMap_eq_nil_iff.2 (fun _ _ => rfl)
    simp [hnil]
  | true =>
    have hsp := shape_levels (E := ofMat M) (k := k) h1
    have hT : ((List.range (h - 1)).flatMap (fun d => [] ++ if true = true then adds (ofMat M) k ⟨0, 0, h - 1⟩ 1 (d + 1) else [])).flatten = ((List.range (h - 1)).flatMap (lev (ofMat M) k · ⟨0, 0, h - 1⟩)).flatMap (bits (ofMat M) k) := by
      rw [List.flatMap_assoc, List.flatMap_def, List.flatten_flatten, List.map_map, List.flatMap_def]
      congr 1
    have hL : ([] ++ if true = true then adds (ofMat M) k ⟨0, 0, h - 1⟩ 1 h else []).flatten = (lev (ofMat M) k (h - 1) ⟨0, 0, h - 1⟩).flatMap (bits (ofMat M) k) := by
      rw [if_pos rfl, List.nil_append, adds, if_pos (by omega), List.flatMap_def]
    rw [hT, hL, if_pos rfl]
    refine ⟨⟨?_, ?_⟩, _, _, hsp⟩
    · rw [length_blocks bits_length]
      have := Nat.mul_le_mul_right (k * k) (levels_length (E := ofMat M) hk ⟨0, 0, h - 1⟩ (h - 1))
      rwa [← Nat.pow_succ, show (h - 1).succ = h by omega] at this
    · rw [length_blocks bits_length]
      have := Nat.mul_le_mul_right (k * k) (lev_length (E := ofMat M) (k := k) (h - 1) ⟨0, 0, h - 1⟩)
      rwa [← Nat.pow_succ, show (h - 1).succ = h by omega] at this

end
end Sdsl.K2
