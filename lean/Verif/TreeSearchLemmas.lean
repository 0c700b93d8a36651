/-
  Search and extraction on suffix trees, from what the members of the tree return.
-/
import Verif.TreeSearch
import Verif.CstSct3CsaOps

namespace Sdsl.TreeSearch

open Csa CstSct3 Props Spec SufTree

/-- What the functions need from a tree; `At v i j`: `v` is the node of the rows `[i..j]`. -/
structure TreeOk {N : Type} (t : TreeI N) (At : N → Nat → Nat → Prop) (T SA L : List Nat) (Q : Nat → Prop) : Prop where
  node : ∀ v i j, At v i j → IsNode L i j
  root : ∃ r, t.root = some r ∧ At r 0 (T.length - 1)
  same : ∀ v i j v' i' j', At v i j → At v' i' j' → (t.same v v' = true ↔ i = i' ∧ j = j')
  depth : ∀ v i j w, At v i j → IsLabel T SA i j w → t.depth v = some w.length
  size : ∀ v i j, At v i j → t.size v = some (j + 1 - i)
  lb : ∀ v i j, At v i j → t.lb v = some i
  leaf : ∀ v i c, At v i i → ∃ r, t.root = some r ∧ t.child v c = some (r, none)
  child : ∀ v i j w c, At v i j → i < j → IsLabel T SA i j w → Q c →
    (∀ x y, IsOcc T SA (w ++ [c]) x y → ∃ u p, t.child v c = some (u, some p) ∧ At u x y ∧ p < T.length ∧ ∃ k, x ≤ k ∧ k ≤ y ∧ sym SA p = sym SA k + w.length) ∧
    ((∀ k, k < T.length → ¬ w ++ [c] <+: suf T SA k) → ∃ r p, t.root = some r ∧ t.child v c = some (r, p))

/-- `v`, `cp` represent the string `w`: `v` is the node of the rows of the suffixes that start with `w` (so `w` ends at `v` or on the edge above it), and `cp` is the row of the suffix that starts with the last
    symbol of an occurrence of `w`; for the empty string it is 0. -/
def Locus {N : Type} (At : N → Nat → Nat → Prop) (T SA : List Nat) (v : N) (w : List Nat) (cp : Nat) : Prop :=
  ∃ i j, At v i j ∧ IsOcc T SA w i j ∧ cp < T.length ∧ ((w = [] ∧ cp = 0) ∨ ∃ k, i ≤ k ∧ k ≤ j ∧ sym SA cp + 1 = sym SA k + w.length)

section

variable {N : Type} {t : TreeI N} {At : N → Nat → Nat → Prop} {T SA L : List Nat} {Q : Nat → Prop} {K : CsaI} (ht : TreeOk t At T SA L Q) (hK : CsaIOk K T SA Q) (hL : IsLcpArray T SA L)
include ht hK hL

theorem step_spec {v : N} {w : List Nat} {cp c : Nat} (hl : Locus At T SA v w cp) (hc : Q c) :
    (∀ x y, IsOcc T SA (w ++ [c]) x y → ∃ u cp', step t K v w.length c cp = some (y + 1 - x, u, cp') ∧ Locus At T SA u (w ++ [c]) cp') ∧
    ((∀ k, k < T.length → ¬ w ++ [c] <+: suf T SA k) → ∃ u cp', step t K v w.length c cp = some (0, u, cp')) := by
  obtain ⟨i, j, hv, ho, hcp, hk⟩ := hl
  obtain ⟨hij, hj, hrow⟩ := ho
  have hT := hK.text
  have hS := hK.isa'
  have hpos := hT.pos
  obtain ⟨W, hW⟩ := label_exists (T := T) hS hij hj
  have hWi := hW.1 i (Nat.le_refl _) hij
  have hwW : w <+: W := by
    have h1 := hW.2 w (fun k k1 k2 => (hrow k (by omega)).1 ⟨k1, k2⟩)
    exact List.prefix_of_prefix_length_le ((hrow i (by omega)).1 ⟨Nat.le_refl _, hij⟩) hWi h1
  have hle := hwW.length_le
  -- a row with `w ++ [c]` is a row of the node
  have hin : ∀ k, k < T.length → w ++ [c] <+: suf T SA k → i ≤ k ∧ k ≤ j := fun k hk h => (hrow k hk).2 (List.IsPrefix.trans (List.prefix_append _ _) h)
  by_cases hm : c ∈ T
  · obtain ⟨cc, k1, k2, k3, k4, k5, k6⟩ := present hK hm
    have hstep : step t K v w.length c cp = (if w.length < W.length then do
        let cp ← K.psi cp
        let a ← K.alpha.C cc
        if cp < a then pure (0, v, cp)
        else do
          let b ← K.alpha.C (cc + 1)
          if cp ≥ b then pure (0, v, cp)
          else do
            let z ← t.size v
            pure (z, v, cp)
      else if w.length = W.length then do
        let u ← t.child v c
        let r ← t.root
        if t.same u.1 r then pure (0, u.1, u.2.getD cp)
        else do
          let z ← t.size u.1
          pure (z, u.1, u.2.getD cp)
      else pure (0, v, cp)) := by
      rw [step, k1, sbind, if_neg (by
        rintro ⟨h1, h2⟩
        have := k6 h1
        omega), ht.depth v i j W hv hW, sbind]
    rw [hstep]
    by_cases hd : w.length < W.length
    · rw [if_pos hd]
      obtain ⟨cp', p1, p2, p3⟩ := hK.psi cp hcp
      -- the new position is behind an occurrence of `w`
      obtain ⟨k, q1, q2, q3⟩ : ∃ k, i ≤ k ∧ k ≤ j ∧ sym SA cp' = sym SA k + w.length := by
        rcases hk with ⟨e1, e2⟩ | ⟨k, e1, e2, e3⟩
        · have hn : T.length = 1 := by
            rcases Nat.lt_or_ge 1 T.length with h1 | h1
            · obtain ⟨g1, _⟩ := root_label hT hS hL h1
              have a0 := (hrow 0 hpos).2 (by rw [e1]; exact List.nil_prefix)
              have a1 := (hrow (T.length - 1) (by omega)).2 (by rw [e1]; exact List.nil_prefix)
              have := g1.2 W (fun x x1 x2 => hW.1 x (by omega) (by omega))
              rw [List.length_nil] at this
              omega
            · omega
          have s1 := hS.sym_get_lt p2
          have s2 := hS.sym_get_lt (i := i) (by omega)
          exact ⟨i, Nat.le_refl _, hij, by rw [e1, List.length_nil]; omega⟩
        · refine ⟨k, e1, e2, ?_⟩
          have h1 := (hW.1 k e1 e2).length_le
          rw [suf_len] at h1
          rw [p3, nxt_small (by omega)]
          omega
      have hlenk := (hW.1 k q1 q2).length_le
      rw [suf_len] at hlenk
      obtain ⟨r1, r2⟩ := row_cmp hT hS p2 c
      -- all rows of the node continue with the same symbol
      have hall : ∀ x, i ≤ x → x ≤ j → (w ++ [c] <+: suf T SA x ↔ sym T (sym SA cp') = c) := by
        intro x x1 x2
        have e1 := (snoc_prefix (c := c) ((hrow k (by omega)).1 ⟨q1, q2⟩))
        rw [← q3] at e1
        have e2 : w ++ [c] <+: W ↔ w ++ [c] <+: suf T SA x :=
          ⟨fun h => h.trans (hW.1 x x1 x2), fun h => List.prefix_of_prefix_length_le h (hW.1 x x1 x2) (by rw [List.length_append, List.length_singleton]; omega)⟩
        have e3 : w ++ [c] <+: W ↔ w ++ [c] <+: suf T SA k :=
          ⟨fun h => h.trans (hW.1 k q1 q2), fun h => List.prefix_of_prefix_length_le h (hW.1 k q1 q2) (by rw [List.length_append, List.length_singleton]; omega)⟩
        rw [← e2, e3, e1]
        exact ⟨fun h => h.2, fun h => ⟨by omega, h⟩⟩
      rw [p1, sbind, k4, sbind]
      by_cases g1 : cp' < smaller T c
      · have hne : sym T (sym SA cp') ≠ c := by have := r1.1 g1; omega
        rw [if_pos g1]
        refine ⟨fun x y hxy => ?_, fun _ => ⟨v, cp', rfl⟩⟩
        have h1 := (hxy.2.2 x (by have := hxy.1; have := hxy.2.1; omega)).1 ⟨Nat.le_refl _, hxy.1⟩
        have h2 := hin x (by have := hxy.1; have := hxy.2.1; omega) h1
        exact absurd ((hall x h2.1 h2.2).1 h1) hne
      · rw [if_neg g1, k5, sbind]
        by_cases g2 : cp' ≥ smaller T c + T.count c
        · have hne : sym T (sym SA cp') ≠ c := by have := r2.1 g2; omega
          rw [if_pos g2]
          refine ⟨fun x y hxy => ?_, fun _ => ⟨v, cp', rfl⟩⟩
          have h1 := (hxy.2.2 x (by have := hxy.1; have := hxy.2.1; omega)).1 ⟨Nat.le_refl _, hxy.1⟩
          have h2 := hin x (by have := hxy.1; have := hxy.2.1; omega) h1
          exact absurd ((hall x h2.1 h2.2).1 h1) hne
        · have he : sym T (sym SA cp') = c := by
            rcases Nat.lt_trichotomy (sym T (sym SA cp')) c with h | h | h
            · exact absurd (r1.2 h) g1
            · exact h
            · exact absurd (r2.2 h) g2
          rw [if_neg g2, ht.size v i j hv, sbind]
          have ho' : IsOcc T SA (w ++ [c]) i j := ⟨hij, hj, fun x hx => ⟨fun h => (hall x h.1 h.2).2 he, hin x hx⟩⟩
          refine ⟨fun x y hxy => ?_, fun hno => absurd ((hall i (Nat.le_refl _) hij).2 he) (hno i (by omega))⟩
          obtain ⟨rfl, rfl⟩ := occ_unique ho' hxy
          refine ⟨v, cp', rfl, i, j, hv, ho', p2, Or.inr ⟨k, q1, q2, ?_⟩⟩
          rw [List.length_append, List.length_singleton]
          omega
    · have he : w.length = W.length := by omega
      obtain rfl := hwW.eq_of_length he
      rw [if_neg hd, if_pos rfl]
      obtain ⟨r, r1, r2⟩ := ht.root
      by_cases hlf : i = j
      · subst hlf
        obtain ⟨r', c1, c2⟩ := ht.leaf v i c hv
        rw [r1] at c1
        obtain rfl := Option.some.inj c1
        rw [c2, sbind, r1, sbind, if_pos ((ht.same _ _ _ _ _ _ r2 r2).2 ⟨rfl, rfl⟩)]
        refine ⟨fun x y hxy => ?_, fun _ => ⟨r, cp, rfl⟩⟩
        exfalso
        have h1 := (hxy.2.2 x (by have := hxy.1; have := hxy.2.1; omega)).1 ⟨Nat.le_refl _, hxy.1⟩
        have h2 := hin x (by have := hxy.1; have := hxy.2.1; omega) h1
        obtain rfl : x = i := by omega
        have := hW.2 (w ++ [c]) (fun k k1 k2 => by rw [show k = x by omega]; exact h1)
        rw [List.length_append, List.length_singleton] at this
        omega
      · obtain ⟨f1, f2⟩ := ht.child v i j w c hv (by omega) hW hc
        refine ⟨fun x y hxy => ?_, fun hno => ?_⟩
        · obtain ⟨u, p, u1, u2, u3, k, u4, u5, u6⟩ := f1 x y hxy
          have hnr : ¬ t.same u r = true := by
            intro h
            obtain ⟨e1, e2⟩ := (ht.same _ _ _ _ _ _ u2 r2).1 h
            have := hW.2 (w ++ [c]) (fun z z1 z2 => (hxy.2.2 z (by omega)).1 ⟨by omega, by omega⟩)
            rw [List.length_append, List.length_singleton] at this
            omega
          rw [u1, sbind, r1, sbind, if_neg hnr, ht.size u x y u2, sbind]
          refine ⟨u, p, rfl, x, y, u2, hxy, u3, Or.inr ⟨k, u4, u5, ?_⟩⟩
          rw [List.length_append, List.length_singleton]
          omega
        · obtain ⟨r', p, c1, c2⟩ := f2 hno
          rw [r1] at c1
          obtain rfl := Option.some.inj c1
          rw [c2, sbind, r1, sbind, if_pos ((ht.same _ _ _ _ _ _ r2 r2).2 ⟨rfl, rfl⟩)]
          exact ⟨r, _, rfl⟩
  · have hb : c ∉ bwtOf T SA := fun h => hm (hS.bwt_perm.mem_iff.1 h)
    have hc0 : c ≠ 0 := by
      rintro rfl
      obtain ⟨U, e, _⟩ := hT
      exact hm (by rw [e]; simp)
    refine ⟨fun x y hxy => ?_, fun _ => ⟨v, cp, ?_⟩⟩
    · have h1 := (hxy.2.2 x (by have := hxy.1; have := hxy.2.1; omega)).1 ⟨Nat.le_refl _, hxy.1⟩
      exact absurd (List.mem_of_mem_drop (h1.subset (by simp))) hm
    · rw [step, hK.alpha.absent c hc hb, sbind, if_pos ⟨rfl, fun h => hc0 h.symm⟩]; rfl

theorem loop_spec (hn : T.length < 2 ^ 64) : ∀ (P : List Nat) (v : N) (w : List Nat) (cp z : Nat), P ≠ [] → Locus At T SA v w cp → (∀ c ∈ P, Q c) →
    (∀ x y, IsOcc T SA (w ++ P) x y → ∃ u cp', loop t K P v w.length cp z = some (y + 1 - x, u, cp') ∧ Locus At T SA u (w ++ P) cp') ∧
    ((∀ k, k < T.length → ¬ w ++ P <+: suf T SA k) → ∃ u cp', loop t K P v w.length cp z = some (0, u, cp')) := by
  intro P
  induction P with
  | nil => intro v w cp z h; exact absurd rfl h
  | cons c P ih =>
    intro v w cp z _ hl hQ
    obtain ⟨s1, s2⟩ := step_spec ht hK hL hl (hQ c List.mem_cons_self)
    have hcat : w ++ c :: P = w ++ [c] ++ P := by simp
    by_cases hex : ∃ k, k < T.length ∧ w ++ [c] <+: suf T SA k
    · -- the extension occurs
      obtain ⟨k, k1, k2⟩ := hex
      obtain ⟨x, y, hxy, _⟩ := occ_exists hK.isa' k1 k2
      obtain ⟨u, cp', u1, u2⟩ := s1 x y hxy
      have hx := hxy.1
      have hy := hxy.2.1
      have hlen : w.length + 1 ≤ T.length := by
        have := k2.length_le
        rw [suf_len, List.length_append, List.length_singleton] at this
        omega
      have hloop : loop t K (c :: P) v w.length cp z = loop t K P u (w ++ [c]).length cp' (y + 1 - x) := by
        rw [loop, u1, sbind, if_neg (show ¬ (y + 1 - x, u, cp').1 = 0 from by dsimp only; omega), add64_eq (by omega), List.length_append, List.length_singleton]
      rw [hloop, hcat]
      by_cases hP : P = []
      · subst hP
        rw [List.append_nil]
        refine ⟨fun x' y' h' => ?_, fun hno => absurd k2 (hno k k1)⟩
        obtain ⟨rfl, rfl⟩ := occ_unique hxy h'
        exact ⟨u, cp', rfl, u2⟩
      · exact ih u (w ++ [c]) cp' _ hP u2 (fun d hd => hQ d (List.mem_cons_of_mem _ hd))
    · have hno : ∀ k, k < T.length → ¬ w ++ [c] <+: suf T SA k := fun k k1 k2 => hex ⟨k, k1, k2⟩
      obtain ⟨u, cp', u1⟩ := s2 hno
      refine ⟨fun x y hxy => ?_, fun _ => ⟨u, cp', ?_⟩⟩
      · have h1 := (hxy.2.2 x (by have := hxy.1; have := hxy.2.1; omega)).1 ⟨Nat.le_refl _, hxy.1⟩
        rw [hcat] at h1
        exact absurd (List.IsPrefix.trans (List.prefix_append _ _) h1) (hno x (by have := hxy.1; have := hxy.2.1; omega))
      · rw [loop, u1, sbind, if_pos rfl]; rfl

/-- `extract(cst, v)`. -/
theorem extract_spec {ext : Nat → Nat → Option (List Nat)} (he : ∀ b e, b ≤ e → e < T.length → ext b e = some ((T.drop b).take (e - b + 1))) (hn : T.length < 2 ^ 63) {v : N} {i j : Nat} (hv : At v i j)
    (hr : ¬ (i = 0 ∧ j + 1 = T.length)) {w : List Nat} (hw : IsLabel T SA i j w) : extract t K ext v = some w := by
  have hT := hK.text
  have hS := hK.isa'
  have hpos := hT.pos
  have hl := hL.1
  have hnd := ht.node v i j hv
  have hij := hnd.1
  have hj := hnd.2.1
  obtain ⟨r, r1, r2⟩ := ht.root
  have hwi := hw.1 i (Nat.le_refl _) hij
  have hlen := hwi.length_le
  rw [suf_len] at hlen
  have hp := hS.sym_get_lt (i := i) (by omega)
  have hne : 0 < w.length := by
    rcases Nat.eq_zero_or_pos w.length with h | h
    · rw [List.length_eq_zero_iff] at h
      subst h
      exact absurd ((root_label hT hS hL (by omega)).2 i j hnd hw) hr
    · exact h
  rw [extract, r1, sbind, if_neg (by
      rw [ht.same _ _ _ _ _ _ hv r2]
      omega), ht.lb v i j hv, sbind, hK.sa i (by omega), sbind, ht.depth v i j w hv hw, sbind, add64_eq (by omega), sub64_eq (by omega) (by omega), he _ _ (by omega) (by omega)]
  obtain ⟨z, hz⟩ : ∃ z, w ++ z = T.drop (sym SA i) := hwi
  rw [← hz, show sym SA i + w.length - 1 - sym SA i + 1 = w.length by omega, List.take_left]

end

end Sdsl.TreeSearch
