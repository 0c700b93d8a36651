/-
  Size of `wt_pc`: the depth of the two shapes and the optimality of the Huffman shape.
-/
import Verif.WtPcNav

namespace Sdsl.Wt

open CT Spec

namespace CT

theorem code_le_height : ∀ (t : CT) (s : Nat), (t.code s).length ≤ t.height := by
  intro t
  induction t with
  | leaf f s' => intro s; simp [code]
  | node l r ih1 ih2 =>
    intro s
    have h1 := ih1 s
    have h2 := ih2 s
    rw [code, height]
    by_cases hl : s ∈ l.syms
    · rw [if_pos hl, List.length_cons]; omega
    · rw [if_neg hl, List.length_cons]; omega

theorem freq_leaves (t : CT) : t.freq = (t.leaves.map (·.2)).sum := t.freq_weights

theorem cost_code : ∀ (t : CT), t.syms.Nodup → t.cost = (t.leaves.map (fun e => e.2 * (t.code e.1).length)).sum := by
  intro t
  induction t with
  | leaf f s => intro _; simp [cost, leaves, code]
  | node l r ih1 ih2 =>
    intro hn
    have hl : ∀ e ∈ l.leaves, ((node l r).code e.1).length = (l.code e.1).length + 1 := by
      intro e he
      have : e.1 ∈ l.syms := List.mem_map.2 ⟨e, he, rfl⟩
      rw [code, if_pos this, List.length_cons]
    have hr : ∀ e ∈ r.leaves, ((node l r).code e.1).length = (r.code e.1).length + 1 := by
      intro e he
      rw [code, if_neg (fun h => disj hn h (List.mem_map.2 ⟨e, he, rfl⟩)), List.length_cons]
    have key : ∀ (L : List (Nat × Nat)) (g h : Nat → Nat), (∀ e ∈ L, g e.1 = h e.1 + 1) → (L.map (fun e => e.2 * g e.1)).sum = (L.map (fun e => e.2 * h e.1)).sum + (L.map (·.2)).sum := by
      intro L g h
      induction L with
      | nil => intro _; rfl
      | cons e L ih =>
        intro hh
        have h1 := ih (fun e he => hh e (by simp [he]))
        have h2 := hh e (by simp)
        simp only [List.map_cons, List.sum_cons] at h1 ⊢
        rw [h1, h2, Nat.mul_add, Nat.mul_one]
        omega
    rw [cost, leaves, List.map_append, List.sum_append, key l.leaves (fun s => ((node l r).code s).length) (fun s => (l.code s).length) hl,
      key r.leaves (fun s => ((node l r).code s).length) (fun s => (r.code s).length) hr, ih1 (nodup_left hn), ih2 (nodup_right hn), freq_leaves, freq_leaves]
    omega

end CT

/-- A sum over the text is a weighted sum over the alphabet. -/
theorem sum_text (xs : List Word) (g : Nat → Nat) : ∀ (L : List (Nat × Nat)), (L.map (·.1)).Nodup → (∀ s f, (s, f) ∈ L → f = xs.countP (fun a => decide (a.toNat = s))) →
    (xs.map (fun x => if x.toNat ∈ L.map (·.1) then g x.toNat else 0)).sum = (L.map (fun e => e.2 * g e.1)).sum := by
  intro L
  induction L with
  | nil => intro _ _; simp
  | cons e L ih =>
    obtain ⟨s, f⟩ := e
    intro hn hf
    rw [List.map_cons, List.nodup_cons] at hn
    have h1 := ih hn.2 (fun s f h => hf s f (by simp [h]))
    simp only [List.map_cons, List.sum_cons]
    rw [← h1, hf s f (by simp)]
    clear h1 ih hf
    induction xs with
    | nil => simp
    | cons x xs ih =>
      simp only [List.map_cons, List.sum_cons, List.countP_cons] at ih ⊢
      by_cases hx : x.toNat = s
      · have : ¬ x.toNat ∈ L.map (·.1) := by rw [hx]; exact hn.1
        rw [if_pos (by rw [hx]; simp), if_neg this, ih, hx]
        simp only [decide_true, if_true, Nat.add_mul, Nat.one_mul]
        omega
      · rw [ih]
        simp only [List.mem_cons, hx, false_or, decide_false, Bool.false_eq_true, if_false, Nat.add_zero]
        omega

namespace PcOk

variable {t : WtPc} {xs : List Word} {ct : CT} {ts : List CT} {M : Nat}

theorem cost_eq (h : PcOk t xs ct ts M) (hl : ∀ s f, (s, f) ∈ ct.leaves ↔ f = xs.countP (fun a => decide (a.toNat = s)) ∧ 0 < f) :
    t.bv.length = (xs.map (fun x => (ct.code x.toNat).length)).sum := by
  rw [h.blen, h.coded.cost, cost_code ct h.coded.nodup]
  have h1 := sum_text xs (fun s => (ct.code s).length) ct.leaves h.coded.nodup (fun s f hm => ((hl s f).1 hm).1)
  rw [← h1]
  congr 1
  apply List.map_congr_left
  intro x hx
  have : x.toNat ∈ ct.leaves.map (·.1) := (h.mem x.toNat).2 ⟨x, hx, rfl⟩
  rw [if_pos this]

/-- No prefix-free code needs fewer bits. -/
theorem optimal (h : PcOk t xs ct ts M) (hl : ∀ s f, (s, f) ∈ ct.leaves ↔ f = xs.countP (fun a => decide (a.toNat = s)) ∧ 0 < f)
    (hb : ∀ t' : CT, t'.weights.Perm ct.weights → ct.cost ≤ t'.cost) (code : Word → List Bool) (hc : ∀ a ∈ xs, ∀ b ∈ xs, a ≠ b → ¬ code a <+: code b) :
    t.bv.length ≤ (xs.map (fun x => (code x).length)).sum := by
  have hsym : ∀ e ∈ ct.leaves, BitVec.ofNat 64 e.1 ∈ xs ∧ e.1 < 2 ^ 64 := by
    intro e he
    obtain ⟨a, ha, hs⟩ := (h.mem e.1).1 (List.mem_map.2 ⟨e, he, rfl⟩)
    have := a.isLt
    refine ⟨?_, by omega⟩
    rw [← hs, BitVec.ofNat_toNat, BitVec.setWidth_eq]
    exact ha
  obtain ⟨t', t1, t2⟩ := CT.of_code _ (ct.leaves.map (fun e => (e.2, code (BitVec.ofNat 64 e.1)))) (by
      intro h0
      have := ct.syms_ne
      rw [CT.syms] at this
      rw [List.map_eq_nil_iff] at h0
      rw [h0] at this
      exact this rfl) (Nat.le_refl _) (by
      rw [List.pairwise_map]
      have hn := h.coded.nodup
      unfold CT.syms at hn
      rw [List.Nodup, List.pairwise_map] at hn
      refine hn.imp_of_mem ?_
      intro e e' he he' hne
      dsimp only
      have h1 := hsym e he
      have h2 := hsym e' he'
      have h3 : BitVec.ofNat 64 e.1 ≠ BitVec.ofNat 64 e'.1 := by
        intro hh
        have := congrArg BitVec.toNat hh
        simp only [BitVec.toNat_ofNat] at this
        rw [Nat.mod_eq_of_lt h1.2, Nat.mod_eq_of_lt h2.2] at this
        exact hne this
      exact ⟨hc _ h1.1 _ h2.1 h3, hc _ h2.1 _ h1.1 (fun e => h3 e.symm)⟩)
  rw [List.map_map] at t1 t2
  have h3 := hb t' t1
  rw [h.blen, h.coded.cost]
  refine Nat.le_trans h3 (Nat.le_trans t2 (Nat.le_of_eq ?_))
  have h1 := sum_text xs (fun s => (code (BitVec.ofNat 64 s)).length) ct.leaves h.coded.nodup (fun s f hm => ((hl s f).1 hm).1)
  refine h1.symm.trans ?_
  congr 1
  apply List.map_congr_left
  intro x hx
  have : x.toNat ∈ ct.leaves.map (·.1) := (h.mem x.toNat).2 ⟨x, hx, rfl⟩
  rw [if_pos this, BitVec.ofNat_toNat, BitVec.setWidth_eq]

end PcOk

theorem freq_total {ct : CT} {xs : List Word} (hn : ct.syms.Nodup) (hl : ∀ s f, (s, f) ∈ ct.leaves ↔ f = xs.countP (fun a => decide (a.toNat = s)) ∧ 0 < f) : ct.freq ≤ xs.length := by
  rw [CT.freq_leaves]
  have h1 := sum_text xs (fun _ => 1) ct.leaves hn (fun s f hm => ((hl s f).1 hm).1)
  simp only [Nat.mul_one] at h1
  rw [← h1]
  clear h1 hl
  induction xs with
  | nil => simp
  | cons x xs ih =>
    simp only [List.map_cons, List.sum_cons, List.length_cons]
    split <;> omega

theorem fibN_lt_of {h : Nat} (hh : 56 < h) : 956722026041 ≤ fibN h := by
  have key : ∀ k, fibN 57 ≤ fibN (57 + k) ∧ fibN (57 + k) ≤ fibN (57 + k + 1) := by
    intro k
    induction k with
    | zero => decide +kernel
    | succ k ih =>
      have : fibN (57 + (k + 1) + 1) = fibN (57 + k) + fibN (57 + k + 1) := rfl
      rw [this, ← Nat.add_assoc 57 k 1]
      omega
  have h1 := (key (h - 57)).1
  rw [show 57 + (h - 57) = h by omega] at h1
  have h2 : fibN 57 = 956722026041 := by decide +kernel
  omega

/-- The Huffman shape does not throw below that length. -/
theorem huff_new {S : Strat} (hS : S.dfs = false) {buf : List Word} {size : Nat} (h0 : 0 < size) (hsz : size ≤ buf.length) (hlen : size < 956722026041)
    (hb : ∀ a ∈ buf.take size, if S.byte then a.toNat < 256 else a.toNat < 2 ^ 56) :
    ∃ ct t ts M, WtPc.new S Huff.shape buf size = some (.ok t) ∧ t.S = S ∧ t.lex = false ∧ PcOk t (buf.take size) ct ts M ∧ Huff.Best ct ∧
      ∀ s f, (s, f) ∈ ct.leaves ↔ f = (buf.take size).countP (fun a => decide (a.toNat = s)) ∧ 0 < f := by
  obtain ⟨C, temp, ct, h1, h2, h3, h4, h5, h6, h7, h8⟩ := new_spec Huff.ok hS h0 hsz hb
  rcases h8 with ⟨⟨s, hs, hd⟩, _⟩ | ⟨t, ts, M, g1, g2, g3, g4⟩
  · exfalso
    have hn : ct.syms.Nodup := by
      have := (h4.map (·.1)).nodup_iff.2 (present_nodup C 0)
      exact this
    have e1 := freq_total hn h7
    rw [List.length_take] at e1
    have e2 := ct.code_le_height s
    have e3 := fibN_lt_of (h := ct.height) (by omega)
    have e4 := h5.1
    omega
  · exact ⟨ct, t, ts, M, g1, g2, g3, g4, h5, h7⟩

/-- The balanced shape never throws. -/
theorem blcd_new {S : Strat} (hS : S.dfs = false) {buf : List Word} {size : Nat} (h0 : 0 < size) (hsz : size ≤ buf.length)
    (hb : ∀ a ∈ buf.take size, if S.byte then a.toNat < 256 else a.toNat < 2 ^ 56) :
    ∃ ct t ts M, WtPc.new S Blcd.shape buf size = some (.ok t) ∧ t.S = S ∧ t.lex = true ∧ PcOk t (buf.take size) ct ts M ∧ Blcd.Flat ct ∧
      ∀ s f, (s, f) ∈ ct.leaves ↔ f = (buf.take size).countP (fun a => decide (a.toNat = s)) ∧ 0 < f := by
  obtain ⟨C, temp, ct, h1, h2, h3, h4, h5, h6, h7, h8⟩ := new_spec Blcd.ok hS h0 hsz hb
  rcases h8 with ⟨⟨s, hs, hd⟩, _⟩ | ⟨t, ts, M, g1, g2, g3, g4⟩
  · exfalso
    have e2 := ct.code_le_height s
    have e3 := h5 56 h6
    omega
  · exact ⟨ct, t, ts, M, g1, g2, g3, g4, h5, h7⟩

end Sdsl.Wt
