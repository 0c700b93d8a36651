/-
  The inverses of the permutations of the chunks (`inv_multi_perm_support`): adding the offsets of the chunks gives one permutation of all positions, for which the run is a run of `inv_perm_support`.
-/
import Verif.WtGmr
import Verif.InvPermLemmas
import Verif.CsaSample

namespace Sdsl.Csa.Gmr

open _root_.Sdsl.Csa Bits

/-- Every chunk of `cs` elements of `v` (the last one may be shorter) is a permutation of its positions. -/
structure IsChunks (cs : Nat) (v : List Nat) : Prop where
  pos : 0 < cs
  lt : ∀ j x, v[j]? = some x → x < cs ∧ j / cs * cs + x < v.length
  inj : ∀ i j x, i / cs = j / cs → v[i]? = some x → v[j]? = some x → i = j

/-- The permutation of all positions. -/
def whole (cs : Nat) (v : List Nat) : List Nat := v.mapIdx (fun j x => x + j / cs * cs)

theorem whole_length (cs : Nat) (v : List Nat) : (whole cs v).length = v.length := by simp [whole]

theorem whole_get (cs : Nat) (v : List Nat) (j : Nat) : (whole cs v)[j]? = v[j]?.map (fun x => x + j / cs * cs) := by
  simp [whole]

theorem chunk_div {cs o x : Nat} (hx : x < cs) : (x + o * cs) / cs = o := by
  rw [Nat.add_mul_div_right _ _ (by omega), Nat.div_eq_of_lt hx, Nat.zero_add]

theorem chunk_of {cs o j : Nat} (_ : 0 < cs) (h1 : o * cs ≤ j) (h2 : j < o * cs + cs) : j / cs = o := by
  rw [show j = (j - o * cs) + o * cs by omega]
  exact chunk_div (by omega)

theorem whole_perm {cs : Nat} {v : List Nat} (h : IsChunks cs v) : InvPerm.IsPerm (whole cs v) := by
  constructor
  · intro y hy
    obtain ⟨j, hj⟩ := List.mem_iff_getElem?.1 hy
    rw [whole_get] at hj
    obtain ⟨x, hx, rfl⟩ := Option.map_eq_some_iff.1 hj
    have := h.lt j x hx
    rw [whole_length]; omega
  · rw [List.nodup_iff_injective_getElem]
    intro ⟨i, hi⟩ ⟨j, hj⟩ e
    rw [whole_length] at hi hj
    simp only [Fin.mk.injEq]
    simp only [whole, List.getElem_mapIdx] at e
    have a := h.lt i v[i] (List.getElem?_eq_getElem hi)
    have b := h.lt j v[j] (List.getElem?_eq_getElem hj)
    have c1 := chunk_div (o := i / cs) a.1
    have c2 := chunk_div (o := j / cs) b.1
    have e2 : i / cs = j / cs := by rw [← c1, e, c2]
    refine h.inj i j v[i] e2 (List.getElem?_eq_getElem hi) ?_
    rw [e2] at e
    rw [List.getElem?_eq_getElem hj]
    congr 1
    omega

/-- `done` is the part of the `done` of the whole permutation for the chunk at `off`; nothing is done behind it. -/
structure Rel (cs n off : Nat) (d dG : List Bool) : Prop where
  len : d.length = cs
  glen : dG.length = n
  eq : ∀ x, off ≤ x → x < off + cs → x < n → d[x - off]? = dG[x]?
  rest : ∀ x, off + cs ≤ x → x < n → dG[x]? = some false

theorem Rel.set {cs n off : Nat} {d dG : List Bool} (h : Rel cs n off d dG) {x : Nat} (h1 : off ≤ x) (h2 : x < off + cs) : Rel cs n off (d.set (x - off) true) (dG.set x true) := by
  refine ⟨by simp [h.len], by simp [h.glen], fun y y1 y2 y3 => ?_, fun y y1 y2 => ?_⟩
  · rw [List.getElem?_set, List.getElem?_set]
    have e1 := h.len
    have e2 := h.glen
    by_cases c : x = y
    · subst c
      rw [if_pos rfl, if_pos rfl, if_pos (by omega), if_pos (by omega)]
    · rw [if_neg (by omega), if_neg c]
      exact h.eq y y1 y2 y3
  · rw [List.getElem?_set_ne (by omega)]
    exact h.rest y y1 y2

/-- The same statement for the whole permutation. -/
def lift {σ : Type} (cs : Nat) (mark : σ → Nat → Nat → Option σ) (s : σ) (j bp : Nat) : Option σ := mark s j (bp - j / cs * cs)

section
variable {σ : Type} {cs : Nat} {v : List Nat} (hv : IsChunks cs v) (ts : Nat) (mark : σ → Nat → Nat → Option σ)
include hv

theorem walk_sim {o i : Nat} (hi1 : o * cs ≤ i) (hi2 : i < o * cs + cs) :
    ∀ (fuel j bp steps all : Nat) (d dG : List Bool) (s : σ) (r : List Bool × σ × Nat × Nat), o * cs ≤ j → j < o * cs + cs → Rel cs v.length (o * cs) d dG →
      InvPerm.walk (whole cs v) ts i (lift cs mark) fuel j bp steps all dG s = some r →
      ∃ d', walk v ts i (o * cs) mark fuel j bp steps all d s = some (d', r.2) ∧ Rel cs v.length (o * cs) d' r.1
  | fuel, j, bp, steps, all, d, dG, s, r, h1, h2, hR, h => by
    rw [InvPerm.walk.eq_def] at h
    rw [walk.eq_def]
    dsimp only at h ⊢
    rw [whole_get] at h
    cases hx : v[j]? with
    | none => rw [hx] at h; cases h
    | some x =>
      rw [hx, Option.map_some, sbind, chunk_of hv.pos h1 h2] at h
      rw [sbind]
      have hb := hv.lt j x hx
      rw [chunk_of hv.pos h1 h2] at hb
      by_cases c : x + o * cs = i
      · rw [if_pos c] at h ⊢
        cases h
        exact ⟨d, rfl, hR⟩
      · rw [if_neg c] at h ⊢
        cases fuel with
        | zero => cases h
        | succ fuel =>
          dsimp only at h ⊢
          have e1 := hR.len
          have e2 := hR.glen
          rw [setList_of_lt (by omega), sbind] at h
          rw [setList_of_lt (by omega), sbind]
          have hR' := hR.set (x := x + o * cs) (by omega) (by omega)
          by_cases c2 : ts = steps + 1
          · rw [if_pos c2] at h ⊢
            have em : lift cs mark s (x + o * cs) bp = mark s (x + o * cs) (bp - o * cs) := by rw [lift, chunk_div hb.1]
            rw [em] at h
            cases hm : mark s (x + o * cs) (bp - o * cs) with
            | none => rw [hm] at h; cases h
            | some s' =>
              rw [hm, sbind] at h
              rw [sbind]
              exact walk_sim hi1 hi2 fuel _ _ _ _ _ _ _ r (by omega) (by omega) hR' h
          · rw [if_neg c2] at h ⊢
            exact walk_sim hi1 hi2 fuel _ _ _ _ _ _ _ r (by omega) (by omega) hR' h

theorem cycle_sim {o i : Nat} (hi1 : o * cs ≤ i) (hi2 : i < o * cs + cs) (hi : i < v.length) {d dG : List Bool} {s : σ} {r : List Bool × σ} (hR : Rel cs v.length (o * cs) d dG)
    (h : InvPerm.cycle (whole cs v) ts (lift cs mark) i dG s = some r) :
    ∃ d', cycle v ts mark i (o * cs) d s = some (d', r.2) ∧ Rel cs v.length (o * cs) d' r.1 := by
  unfold InvPerm.cycle at h
  unfold cycle
  have e1 := hR.len
  have e2 := hR.glen
  rw [hR.eq i hi1 hi2 hi]
  cases hd : dG[i]? with
  | none => rw [hd] at h; cases h
  | some b =>
    rw [hd, sbind] at h
    rw [sbind]
    cases b with
    | true =>
      rw [if_pos rfl] at h ⊢
      cases h
      exact ⟨d, rfl, hR⟩
    | false =>
      rw [if_neg (by simp)] at h ⊢
      rw [setList_of_lt (by omega), sbind] at h
      rw [setList_of_lt (by omega), sbind]
      rw [whole_length] at h
      cases hw : InvPerm.walk (whole cs v) ts i (lift cs mark) v.length i i 0 0 (dG.set i true) s with
      | none => rw [hw] at h; cases h
      | some q =>
        rw [hw, sbind] at h
        obtain ⟨d', w1, w2⟩ := walk_sim hv ts mark hi1 hi2 _ _ _ _ _ _ _ _ q hi1 hi2 (hR.set hi1 hi2) hw
        rw [w1, sbind]
        dsimp only
        by_cases c : q.2.2.2 > ts
        · rw [if_pos c] at h ⊢
          have em : lift cs mark q.2.1 i q.2.2.1 = mark q.2.1 i (q.2.2.1 - o * cs) := by rw [lift, chunk_of hv.pos hi1 hi2]
          rw [em] at h
          cases hm : mark q.2.1 i (q.2.2.1 - o * cs) with
          | none => rw [hm] at h; cases h
          | some s' =>
            rw [hm, sbind] at h
            cases h
            exact ⟨d', rfl, w2⟩
        · rw [if_neg c] at h ⊢
          cases h
          exact ⟨d', rfl, w2⟩

theorem pass_sim : ∀ (k i o : Nat) (d dG : List Bool) (s : σ) (r : List Bool × σ), i + k = v.length → o * cs ≤ i → i ≤ o * cs + cs → Rel cs v.length (o * cs) d dG →
    InvPerm.pass (whole cs v) ts (lift cs mark) k i dG s = some r → ∃ d', pass v ts cs mark k i (o * cs) d s = some (d', r.2)
  | 0, i, o, d, dG, s, r, hk, h1, h2, hR, h => by
    rw [InvPerm.pass] at h
    cases h
    exact ⟨d, rfl⟩
  | k + 1, i, o, d, dG, s, r, hk, h1, h2, hR, h => by
    rw [InvPerm.pass] at h
    cases hc : InvPerm.cycle (whole cs v) ts (lift cs mark) i dG s with
    | none => rw [hc] at h; cases h
    | some q =>
      rw [hc, sbind] at h
      rw [pass]
      have h0 := hv.pos
      by_cases c : i = o * cs + cs
      · rw [if_pos c]
        dsimp only
        have e : i = (o + 1) * cs := by rw [c, Nat.succ_mul]
        have hR' : Rel cs v.length ((o + 1) * cs) (List.replicate cs false) dG := by
          refine ⟨by simp, hR.glen, fun x x1 x2 x3 => ?_, fun x x1 x2 => hR.rest x (by omega) x2⟩
          rw [List.getElem?_replicate, if_pos (by omega), hR.rest x (by omega) x3]
        obtain ⟨d', g1, g2⟩ := cycle_sim hv ts mark (o := o + 1) (by omega) (by omega) (by omega) hR' hc
        rw [← e] at g1
        rw [g1, sbind]
        dsimp only
        rw [e]
        exact pass_sim k ((o + 1) * cs + 1) (o + 1) d' _ _ r (by omega) (by omega) (by omega) g2 (by rw [← e]; exact h)
      · rw [if_neg c]
        dsimp only
        obtain ⟨d', g1, g2⟩ := cycle_sim hv ts mark (o := o) (by omega) (by omega) (by omega) hR hc
        rw [g1, sbind]
        dsimp only
        exact pass_sim k (i + 1) o d' _ _ r (by omega) (by omega) (by omega) g2 h

end

theorem run_lift {σ : Type} (cs : Nat) (mark : σ → Nat → Nat → Option σ) (T : List (Nat × Nat)) (s : σ) :
    InvPerm.run (lift cs mark) T s = InvPerm.run mark (T.map fun p => (p.1, p.2 - p.1 / cs * cs)) s := by
  induction T generalizing s with
  | nil => rfl
  | cons p T ih =>
    rw [List.map_cons, InvPerm.run, InvPerm.run, lift]
    cases mark s p.1 (p.2 - p.1 / cs * cs) with
    | none => rfl
    | some s' => rw [sbind, sbind, ih]

/-- Steps along the permutation stay in the chunk. -/
theorem it_chunk {cs : Nat} {v : List Nat} (hv : IsChunks cs v) {i : Nat} (hi : i < v.length) (k : Nat) : InvPerm.it (whole cs v) k i / cs = i / cs := by
  induction k with
  | zero => rfl
  | succ k ih =>
    have hl := InvPerm.it_lt (whole_perm hv) (by rw [whole_length]; exact hi) k
    rw [InvPerm.it]
    rw [whole_length] at hl
    rw [InvPerm.f, List.getD_eq_getElem?_getD, whole_get, List.getElem?_eq_getElem hl]
    show (_ + _) / cs = _
    rw [chunk_div (hv.lt _ _ (List.getElem?_eq_getElem hl)).1, ih]

/-- What the constructor leaves behind. -/
theorem imp_good {cs ts : Nat} {v : List Nat} (hv : IsChunks cs v) (hn : v.length ≤ 2 ^ 64) :
    ∃ p q Ls, Imp.new ts v cs = some p ∧ InvPerm.Good ts (whole cs v) q Ls ∧ p.v = v ∧ p.cs = cs ∧ p.marked = q.marked ∧
      ∀ x, p.marked[x]? = some true → ∃ b, q.back.get (InvPerm.rank q.marked x) = some b ∧ b / cs = x / cs ∧ p.back.get (InvPerm.rank q.marked x) = some (b - x / cs * cs) := by
  have hp := whole_perm hv
  have hwl := whole_length cs v
  have hD : InvPerm.Dn (whole cs v) (List.replicate v.length false) [] := by
    refine ⟨by simp [hwl], fun x h => ?_, by simp, by simp⟩
    rw [List.getElem?_replicate, if_pos (by omega)]; simp
  obtain ⟨Ls, done', h1, h2, h3⟩ := InvPerm.pass_eq hp ts v.length 0 _ [] (by omega) hD (by intro x h; omega)
  rw [List.nil_append] at h1
  generalize hT : (Ls.flatMap fun i => InvPerm.cyc (whole cs v) ts i (InvPerm.per (whole cs v) i)) = T at h3
  have hTlt : ∀ p ∈ T, p.1 < v.length ∧ p.2 < v.length ∧ p.2 / cs = p.1 / cs := by
    intro p h
    rw [← hT, List.mem_flatMap] at h
    obtain ⟨i, h4, h5⟩ := h
    have hi := h1.lt i h4
    have hi' : i < v.length := by omega
    rw [InvPerm.cyc_mem] at h5
    rcases h5 with ⟨u, -, -, -, rfl⟩ | ⟨-, rfl⟩
    · exact ⟨by rw [← hwl]; exact InvPerm.it_lt hp hi _, by rw [← hwl]; exact InvPerm.it_lt hp hi _, by dsimp only; rw [it_chunk hv hi', it_chunk hv hi']⟩
    · exact ⟨hi', by rw [← hwl]; exact InvPerm.it_lt hp hi _, by dsimp only; rw [it_chunk hv hi']⟩
  obtain ⟨T', hT'⟩ : ∃ T', T' = T.map fun p => (p.1, p.2 - p.1 / cs * cs) := ⟨_, rfl⟩
  have hT'lt : ∀ p ∈ T', p.1 < v.length ∧ p.2 < v.length := by
    intro p h
    rw [hT'] at h
    obtain ⟨p', a1, rfl⟩ := List.mem_map.1 h
    have := hTlt p' a1
    exact ⟨this.1, by dsimp only; omega⟩
  have hmem : ∀ x, (∃ b, (x, b) ∈ T') ↔ ∃ b, (x, b) ∈ T := by
    intro x
    constructor
    · rintro ⟨b, hb⟩
      rw [hT'] at hb
      obtain ⟨p', a1, a2⟩ := List.mem_map.1 hb
      cases a2
      exact ⟨p'.2, a1⟩
    · rintro ⟨b, hb⟩
      exact ⟨b - x / cs * cs, by rw [hT']; exact List.mem_map.2 ⟨(x, b), hb, rfl⟩⟩
  obtain ⟨m, mx, g1, g2, g3, g4, g5, g6⟩ := InvPerm.run_mark1 (n := v.length) T' (List.replicate v.length false) 0 (by simp) (by omega) hn hT'lt
  have gm : ∀ x, x < v.length → (m[x]? = some true ↔ ∃ b, (x, b) ∈ T) := by
    intro x hx
    rw [g6 x hx, List.getElem?_replicate, if_pos hx, ← hmem x]; simp
  have hw : IntVec.clampWidth (Nat.log2 mx + 1) = Nat.log2 mx + 1 := by
    unfold IntVec.clampWidth
    rw [if_pos]
    refine ⟨by omega, ?_⟩
    rcases Nat.eq_zero_or_pos mx with h | h
    · rw [h]; decide
    · have := (Nat.log2_lt (by omega)).2 g3
      omega
  have hfit : ∀ b, b ≤ mx → b < 2 ^ (Nat.log2 mx + 1) := fun b hb => Nat.lt_of_le_of_lt hb Nat.lt_log2_self
  obtain ⟨a', k1, k2⟩ := InvPerm.run_mark2 (m := m) (n := v.length) T' (Arr.new (InvPerm.rank m v.length) 0 (Nat.log2 mx + 1)) (by simp [Arr.new]) (by
    intro p h
    have := hT'lt p h
    refine ⟨this.1, (gm _ this.1).2 ((hmem _).1 ⟨p.2, h⟩), ?_⟩
    show p.2 < 2 ^ IntVec.clampWidth (Nat.log2 mx + 1)
    rw [hw]
    exact hfit _ (g5 p h))
  have hR : Rel cs v.length (0 * cs) (List.replicate cs false) (List.replicate v.length false) := by
    refine ⟨by simp, by simp, fun x x1 x2 x3 => ?_, fun x x1 x2 => ?_⟩
    · rw [List.getElem?_replicate, List.getElem?_replicate, if_pos (by omega), if_pos x3]
    · rw [List.getElem?_replicate, if_pos x2]
  have e0 : 0 * cs = 0 := Nat.zero_mul _
  obtain ⟨d1, p1⟩ := pass_sim hv ts InvPerm.mark1 v.length 0 0 _ _ (List.replicate v.length false, 0) (done', m, mx) (by omega) (by omega) (by omega) hR (by
    rw [h3, run_lift, ← hT', g1]; rfl)
  obtain ⟨d2, p2⟩ := pass_sim hv ts (InvPerm.mark2 m) v.length 0 0 _ _ (Arr.new (InvPerm.rank m v.length) 0 (Nat.log2 mx + 1)) (done', a') (by omega) (by omega) (by omega) hR (by
    rw [h3, run_lift, ← hT', k1]; rfl)
  rw [e0] at p1 p2
  -- the absolute back pointers
  have hptr : ∀ x, m[x]? = some true → ∃ b, (x, b) ∈ T ∧ a'.get (InvPerm.rank m x) = some (b - x / cs * cs) := by
    intro x hx
    have hxl : x < v.length := by
      rw [← g2]
      exact (List.getElem?_eq_some_iff.1 hx).1
    obtain ⟨b, hb⟩ := (hmem x).2 ((gm x hxl).1 hx)
    rcases k2 (InvPerm.rank m x) with ⟨-, h4⟩ | ⟨p, h4, h5, h6⟩
    · exact absurd rfl (h4 _ hb)
    · have hpl := hT'lt p h4
      have : p.1 = x := InvPerm.rank_inj ((gm _ hpl.1).2 ((hmem _).1 ⟨p.2, h4⟩)) hx h5
      rw [hT'] at h4
      obtain ⟨p', a1, a2⟩ := List.mem_map.1 h4
      subst a2
      dsimp only at this h6
      subst this
      exact ⟨p'.2, a1, h6⟩
  have hch : ∀ r, ∃ b, ∀ x, m[x]? = some true → InvPerm.rank m x = r → (x, b) ∈ T ∧ a'.get r = some (b - x / cs * cs) := by
    intro r
    by_cases c : ∃ x, m[x]? = some true ∧ InvPerm.rank m x = r
    · obtain ⟨x, x1, x2⟩ := c
      obtain ⟨b, b1, b2⟩ := hptr x x1
      refine ⟨b, fun y y1 y2 => ?_⟩
      obtain rfl := InvPerm.rank_inj y1 x1 (by omega)
      exact ⟨b1, by rw [← x2]; exact b2⟩
    · exact ⟨0, fun x x1 x2 => absurd ⟨x, x1, x2⟩ c⟩
  obtain ⟨B, hB⟩ : ∃ B : Nat → Nat, ∀ r x, m[x]? = some true → InvPerm.rank m x = r → (x, B r) ∈ T ∧ a'.get r = some (B r - x / cs * cs) :=
    ⟨fun r => (hch r).choose, fun r => (hch r).choose_spec⟩
  have hq : ∀ x, m[x]? = some true → ((List.range v.length).map B)[InvPerm.rank m x]? = some (B (InvPerm.rank m x)) := by
    intro x hx
    have hxl : x < v.length := by
      rw [← g2]
      exact (List.getElem?_eq_some_iff.1 hx).1
    have : InvPerm.rank m x ≤ x := Spec.countTrue_le _ _
    rw [List.getElem?_map, List.getElem?_range (by omega)]; rfl
  refine ⟨⟨v, cs, a', m⟩, ⟨whole cs v, ⟨64, (List.range v.length).map B⟩, m⟩, Ls, ?_, ⟨rfl, h1.lt, h1.uniq, fun x hx => (h1.iff x hx).1 (h2 x hx), by rw [hwl]; exact g2, by rw [hT, hwl]; exact gm, ?_⟩, rfl, rfl, rfl, ?_⟩
  · unfold Imp.new
    dsimp only
    rw [p1, sbind]
    dsimp only
    rw [hi_eq, sbind, show (BitVec.ofNat 64 mx).toNat = mx by rw [BitVec.toNat_ofNat, Nat.mod_eq_of_lt g3], p2]
    rfl
  · intro x hx
    rw [hT]
    exact ⟨_, (hB _ x hx rfl).1, hq x hx⟩
  · intro x hx
    have := hB _ x hx rfl
    exact ⟨_, hq x hx, (hTlt _ this.1).2.2, this.2⟩

/-! ### Queries -/

section
variable {cs : Nat} {v : List Nat} (hv : IsChunks cs v)
include hv

theorem follow_sim {o i : Nat} : ∀ (fuel j r : Nat), j / cs = o → InvPerm.follow (whole cs v) i fuel j = some r → follow v i (o * cs) fuel j = some r
  | fuel, j, r, hj, h => by
    rw [InvPerm.follow.eq_def] at h
    rw [follow.eq_def]
    dsimp only at h ⊢
    rw [whole_get, hj] at h
    cases hx : v[j]? with
    | none => rw [hx] at h; cases h
    | some x =>
      rw [hx, Option.map_some, sbind] at h
      rw [sbind]
      by_cases c : x + o * cs = i
      · rw [if_pos c] at h ⊢; exact h
      · rw [if_neg c] at h ⊢
        cases fuel with
        | zero => cases h
        | succ fuel => exact follow_sim fuel _ r (chunk_div (hv.lt j x hx).1) h

theorem search_sim {o i : Nat} {p : Imp} {q : InvPerm.Ips} (h1 : p.v = v) (h2 : q.v = whole cs v) (h3 : p.marked = q.marked)
    (h4 : ∀ x, p.marked[x]? = some true → ∃ b, q.back.get (InvPerm.rank q.marked x) = some b ∧ b / cs = x / cs ∧ p.back.get (InvPerm.rank q.marked x) = some (b - x / cs * cs)) :
    ∀ (fuel j r : Nat), j / cs = o → InvPerm.search q i fuel j = some r → search p i (o * cs) fuel j = some r
  | fuel, j, r, hj, h => by
    rw [InvPerm.search.eq_def] at h
    rw [search.eq_def]
    dsimp only at h ⊢
    rw [h2, whole_get, hj] at h
    rw [h1]
    cases hx : v[j]? with
    | none => rw [hx] at h; cases h
    | some x =>
      rw [hx, Option.map_some, sbind] at h
      rw [sbind]
      by_cases c : x + o * cs = i
      · rw [if_pos c] at h ⊢; exact h
      · rw [if_neg c] at h ⊢
        cases fuel with
        | zero => cases h
        | succ fuel =>
          dsimp only at h ⊢
          rw [h3]
          cases hm : q.marked[j]? with
          | none => rw [hm] at h; cases h
          | some b =>
            rw [hm, sbind] at h
            rw [sbind]
            cases b with
            | true =>
              rw [if_pos rfl] at h ⊢
              obtain ⟨y, y1, y2, y3⟩ := h4 j (by rw [h3]; exact hm)
              rw [y1, sbind] at h
              have := Nat.div_add_mod y cs
              rw [y3, sbind, hj, show y - o * cs + o * cs = y by rw [← hj, ← y2]; have := Nat.div_mul_le_self y cs; omega]
              exact follow_sim hv fuel y r (by omega) h
            | false =>
              rw [if_neg (by simp)] at h ⊢
              exact search_sim h1 h2 h3 h4 fuel _ r (chunk_div (hv.lt j x hx).1) h

end

/-- The constructor and the queries. -/
theorem imp_spec {cs ts : Nat} {v : List Nat} (hv : IsChunks cs v) (hn : v.length ≤ 2 ^ 64) :
    ∃ p, Imp.new ts v cs = some p ∧ p.v = v ∧ p.cs = cs ∧ ∀ fuel i, i < v.length → (2 * v.length ≤ fuel ∨ 0 < ts ∧ fuel = ts) →
      ∃ j x, p.get fuel i = some j ∧ v[j]? = some x ∧ i = x + j / cs * cs := by
  obtain ⟨p, q, Ls, g1, g2, g3, g4, g5, g6⟩ := imp_good (ts := ts) hv hn
  refine ⟨p, g1, g3, g4, fun fuel i hi hf => ?_⟩
  obtain ⟨j, j1, j2⟩ := InvPerm.get_eq (whole_perm hv) g2 (q := i) (by rw [whole_length]; exact hi) (by rw [whole_length]; exact hf)
  rw [whole_get] at j2
  obtain ⟨x, x1, x2⟩ := Option.map_eq_some_iff.1 j2
  refine ⟨j, x, ?_, x1, x2.symm⟩
  have := hv.pos
  rw [Imp.get, if_neg (by omega), g4]
  exact search_sim hv g3 g2.vEq g5 g6 fuel i j rfl j1

end Sdsl.Csa.Gmr
