import Verif.SerialLemmas

/-! # Round trip of `select_support_mcl` -/
namespace Sdsl.Serial
open IntVec Spec

/-- Same contents of a block: the width of an empty one does not matter. -/
def sameBlk (x y : IntVec) : Prop := y.size = x.size ∧ y.elems = x.elems ∧ (x.size ≠ 0 → y.width = x.width)

/-- A possible `select_support_mcl` that points to `p`: there is a pair of a long and a mini block for every superblock of 4096
    arguments, one of them empty; without long blocks that array does not exist. (`init_fast` allocates one long block too many,
    select_support_mcl.hpp:304, 334, hence `≤`.) -/
structure okSel (v : SelMcl) (p : Ptr) : Prop where
  ptr : v.m_v = p
  cnt : v.m_arg_cnt + 4095 < 2 ^ 64
  super : okVec 0 v.m_superblock none
  mini : v.m_miniblock.length = if v.m_arg_cnt = 0 then 0 else SelMcl.sb v.m_arg_cnt
  okMini : ∀ x ∈ v.m_miniblock, okVec 0 x none
  long : ∀ l, v.m_longsuperblock = some l → v.m_arg_cnt ≠ 0 ∧ SelMcl.sb v.m_arg_cnt ≤ l.length ∧ (∀ x ∈ l, okVec 0 x none) ∧
    ∀ (i : Nat) (x y : IntVec), l[i]? = some x → v.m_miniblock[i]? = some y → x.size = 0 ∨ y.size = 0

/-- Same arguments, superblocks, long and mini blocks. -/
structure sameSel (v w : SelMcl) : Prop where
  cnt : w.m_arg_cnt = v.m_arg_cnt
  super : v.m_arg_cnt ≠ 0 → sameVec v.m_superblock w.m_superblock
  mini : List.Forall₂ sameBlk v.m_miniblock w.m_miniblock
  long : Option.Rel (fun l l' => List.Forall₂ sameBlk (l.take (SelMcl.sb v.m_arg_cnt)) (l'.take (SelMcl.sb v.m_arg_cnt)))
    v.m_longsuperblock w.m_longsuperblock

theorem sameBlk_of_sameVec {x y : IntVec} (h : sameVec x y) : sameBlk x y := ⟨h.2.1, h.2.2, fun _ => h.1⟩

theorem sameBlk_empty {x y : IntVec} (hx : x.size = 0) (hy : y.size = 0) : sameBlk x y := by
  refine ⟨by omega, ?_, fun h => absurd hx h⟩
  unfold elems
  rw [hx, hy, Nat.zero_div, Nat.zero_div]; rfl

theorem fresh_ok : okVec 0 fresh none := ⟨⟨by decide, by decide, by decide⟩, by decide, by simp⟩

theorem freshBits_ok : okVec 1 freshBits none := ⟨⟨by decide, by decide, by decide⟩, by decide, fun _ => rfl⟩

/-- The bits of a `bit_vector` determine what `operator[]` reads. -/
theorem get1_same {v w : IntVec} (hv : v.WF) (hw : w.WF) (h1 : v.width = 1) (hs : sameVec v w) {i : Nat} (hi : i < v.size) :
    w.get1 i = v.get1 i := by
  have hw1 : w.width = 1 := by rw [hs.1, h1]
  have f1 := hv.fit
  have f2 := hw.fit
  have hsz := hs.2.1
  rw [get1_eq (by omega), get1_eq (by omega)]
  have he := congrArg (fun l : List Nat => l[i]?) hs.2.2
  simp only [elems_get?] at he
  rw [hw1, h1, Nat.div_one, Nat.div_one, hsz, if_pos hi, if_pos hi] at he
  have he : w.elem i = v.elem i := by simpa using he
  unfold elem field at he
  rw [hw1, h1] at he
  simp only [bitsVal, Nat.mul_one, Nat.add_zero] at he
  congr 1
  cases hb : bitAt w.data i <;> cases hc : bitAt v.data i <;> simp [hb, hc] at he ⊢

theorem molLoop_spec (mini : List IntVec) : ∀ (k i : Nat) (mol : IntVec), mol.WF → i + k ≤ mol.size → i + k ≤ mini.length →
    ∃ d, molLoop mini i k mol = some { mol with data := d } ∧ d.length = mol.data.length ∧
      (∀ q, q < i → bitAt d q = bitAt mol.data q) ∧
      ∀ q x, i ≤ q → q < i + k → mini[q]? = some x → bitAt d q = !isEmpty x := by
  intro k
  induction k with
  | zero => intro i mol _ _ _; exact ⟨mol.data, rfl, rfl, fun _ _ => rfl, fun q x h1 h2 => by omega⟩
  | succ k ih =>
    intro i mol hm h1 h2
    have hf := hm.fit
    have hi : i < mini.length := by omega
    obtain ⟨d, e1, e2, e3⟩ := set1_eq (v := mol) (i := i) (!isEmpty mini[i]) (by omega)
    obtain ⟨d', f1, f2, f3, f4⟩ := ih (i + 1) { mol with data := d } ⟨hm.w1, hm.w64, by simp only; omega⟩
      (by simp only; omega) (by omega)
    refine ⟨d', ?_, by rw [f2]; exact e2, fun q hq => ?_, fun q x hq1 hq2 hx => ?_⟩
    · simp only [molLoop, List.getElem?_eq_getElem hi, Option.bind_eq_bind, Option.bind_some, e1, f1]
    · rw [f3 q (by omega), e3, if_neg (by omega)]
    · by_cases hqi : q = i
      · subst hqi
        rw [f3 q (by omega), e3, if_pos rfl]
        rw [List.getElem?_eq_getElem hi] at hx
        cases hx; rfl
      · exact f4 q x (by omega) (by omega) hx

theorem sb_pos {n : Nat} (h0 : n ≠ 0) (h : n + 4095 < 2 ^ 64) : SelMcl.sb n ≠ 0 := by
  unfold SelMcl.sb
  rw [Nat.mod_eq_of_lt h]; omega

/-- What `mini_or_long` says about a superblock. -/
theorem molVec_spec (junk : Nat → Word) {v : SelMcl} {p : Ptr} (hv : okSel v p) (h0 : v.m_arg_cnt ≠ 0) :
    ∃ mol, molVec junk v = some mol ∧ okVec 1 mol none ∧
      (mol.size = if v.m_longsuperblock.isSome then SelMcl.sb v.m_arg_cnt else 0) ∧
      ∀ (i : Nat) (x : IntVec), v.m_longsuperblock.isSome = true → v.m_miniblock[i]? = some x → mol.get1 i = some (!isEmpty x) := by
  have hml := hv.mini
  rw [if_neg h0] at hml
  have hsb : SelMcl.sb v.m_arg_cnt < 2 ^ 64 := by unfold SelMcl.sb; omega
  unfold molVec
  by_cases hl : v.m_longsuperblock.isSome = true
  · rw [if_pos hl]
    obtain ⟨d0, r1, r2, -⟩ := bitResize_eq junk freshBits (by decide) (SelMcl.sb v.m_arg_cnt)
    simp only [r1, Option.bind_eq_bind, Option.bind_some]
    have hwf : WF { freshBits with size := SelMcl.sb v.m_arg_cnt, data := d0 } := ⟨Nat.le_refl 1, by simp [freshBits], r2⟩
    obtain ⟨d, e1, e2, e3, e4⟩ := molLoop_spec v.m_miniblock (SelMcl.sb v.m_arg_cnt) 0 _ hwf (by simp) (by omega)
    refine ⟨_, e1, ⟨⟨Nat.le_refl 1, by simp [freshBits], by simp only; rw [e2]; exact r2⟩, hsb, fun _ => rfl⟩, by rw [if_pos hl], ?_⟩
    intro i x _ hx
    have hi : i < v.m_miniblock.length := by
      by_contra hc; rw [List.getElem?_eq_none (by omega)] at hx; cases hx
    rw [get1_eq (by simp only; rw [e2]; simp only; omega)]
    simp only
    rw [e4 i x (by omega) (by omega) hx]
  · rw [if_neg hl]
    exact ⟨_, rfl, freshBits_ok, by rw [if_neg hl]; rfl, fun i x h => absurd h hl⟩

/-- The loops over the superblocks. -/
theorem mclLoops (junk : Nat → Word) {v : SelMcl} {p : Ptr} (hv : okSel v p) (h0 : v.m_arg_cnt ≠ 0) {mol : IntVec} (n : Nat)
    (hn : n = SelMcl.sb v.m_arg_cnt)
    (hmol : ∀ (i : Nat) (x : IntVec), v.m_miniblock[i]? = some x → isLong mol i = some (v.m_longsuperblock.isSome && isEmpty x)) :
    ∀ k i, i + k = n → ∃ out, mclSerLoop junk mol v.m_longsuperblock v.m_miniblock i k = some (out, out.length) ∧
      ∀ mol' lng mini rest, (∀ j, j < n → isLong mol' j = isLong mol j) →
        lng.length = (if v.m_longsuperblock.isSome then n else 0) → mini.length = n →
        (∀ j x, i ≤ j → lng[j]? = some x → x = fresh) → (∀ j x, i ≤ j → mini[j]? = some x → x = fresh) →
        ∃ lng' mini', mclLoadLoop junk mol' i k lng mini (out ++ rest) = some (lng', mini', rest) ∧
          lng'.length = lng.length ∧ mini'.length = mini.length ∧
          (∀ j, j < i → lng'[j]? = lng[j]? ∧ mini'[j]? = mini[j]?) ∧
          (∀ j x y, i ≤ j → v.m_miniblock[j]? = some x → mini'[j]? = some y → sameBlk x y ∧ okVec 0 y none) ∧
          (∀ j l x y, i ≤ j → v.m_longsuperblock = some l → l[j]? = some x → lng'[j]? = some y →
            sameBlk x y ∧ okVec 0 y none) ∧
          (∀ j x y, i ≤ j → lng'[j]? = some x → mini'[j]? = some y → x.size = 0 ∨ y.size = 0) := by
  have hml := hv.mini
  rw [if_neg h0, ← hn] at hml
  intro k
  induction k with
  | zero =>
    intro i hi
    refine ⟨[], rfl, fun mol' lng mini rest _ hl hm hfl hfm => ⟨lng, mini, rfl, rfl, rfl, fun j _ => ⟨rfl, rfl⟩, ?_, ?_, ?_⟩⟩
    · intro j x y hj _ hy
      rw [List.getElem?_eq_none (by omega)] at hy; cases hy
    · intro j l x y hj hl' _ hy
      rw [hl'] at hl
      simp only [Option.isSome_some, if_true] at hl
      rw [List.getElem?_eq_none (by omega)] at hy; cases hy
    · intro j x y hj _ hy
      rw [List.getElem?_eq_none (by omega)] at hy; cases hy
  | succ k ih =>
    intro i hi
    obtain ⟨o2, s2, l2⟩ := ih (i + 1) (by omega)
    have hi1 : i < v.m_miniblock.length := by omega
    have hx := List.getElem?_eq_getElem hi1
    have hlong := hmol i _ hx
    generalize v.m_miniblock[i] = x at hx hlong
    have hxok : okVec 0 x none := hv.okMini x (List.mem_of_getElem? hx)
    by_cases hc : (v.m_longsuperblock.isSome && isEmpty x) = true
    · -- a long block
      rw [hc] at hlong
      rw [Bool.and_eq_true] at hc
      obtain ⟨l, hl⟩ := Option.isSome_iff_exists.mp hc.1
      obtain ⟨-, hll, hlok, hlx⟩ := hv.long l hl
      have hxe : x.size = 0 := by simpa [isEmpty] using hc.2
      have hy := List.getElem?_eq_getElem (l := l) (i := i) (by omega)
      generalize l[i]'(by omega) = y at hy
      have hyok : okVec 0 y none := hlok y (List.mem_of_getElem? hy)
      obtain ⟨o1, s1, l1⟩ := (vec_good junk 0).rt y none hyok
      refine ⟨o1 ++ o2, ?_, fun mol' lng mini rest hm' hlen hmlen hfl hfm => ?_⟩
      · simp only [mclSerLoop, hlong, hl, hy, Option.bind_eq_bind, Option.bind_some, if_true, s1]
        rw [hl] at s2
        rw [s2, andThen_some]
      · rw [hl] at hlen
        simp only [Option.isSome_some, if_true] at hlen
        have hf := List.getElem?_eq_getElem (l := lng) (i := i) (by omega)
        have hfe := hfl i _ (Nat.le_refl i) hf
        rw [hfe] at hf
        obtain ⟨w, e1, m1, k1⟩ := l1 fresh none none (o2 ++ rest) fresh_ok (by simp)
        obtain ⟨lng', mini', e2, g1, g2, g3, g4, g5, g6⟩ := l2 mol' (lng.set i w) mini rest hm'
          (by rw [List.length_set, hl]; simpa using hlen) hmlen
          (fun j z hj hz => by
            rw [List.getElem?_set_ne (by omega)] at hz; exact hfl j z (by omega) hz)
          (fun j z hj hz => hfm j z (by omega) hz)
        rw [List.length_set] at g1
        have hli : lng'[i]? = some w := by
          rw [(g3 i (by omega)).1, List.getElem?_set_self (by omega)]
        have hmi : mini'[i]? = some fresh := by
          rw [(g3 i (by omega)).2]
          have := List.getElem?_eq_getElem (l := mini) (i := i) (by omega)
          rw [hfm i _ (Nat.le_refl i) this] at this
          exact this
        refine ⟨lng', mini', ?_, g1, g2, ?_, ?_, ?_, ?_⟩
        · simp only [mclLoadLoop, hm' i (by omega), hlong, hf, Option.bind_eq_bind, Option.bind_some, if_true, List.append_assoc,
            e1, e2]
        · intro j hj
          obtain ⟨a, b⟩ := g3 j (by omega)
          rw [List.getElem?_set_ne (by omega)] at a
          exact ⟨a, b⟩
        · intro j z y' hj hz hy'
          by_cases hji : j = i
          · subst hji
            rw [hx] at hz; rw [hmi] at hy'
            cases hz; cases hy'
            exact ⟨sameBlk_empty hxe rfl, fresh_ok⟩
          · exact g4 j z y' (by omega) hz hy'
        · intro j l' z y' hj hl' hz hy'
          by_cases hji : j = i
          · subst hji
            rw [hl] at hl'; cases hl'
            rw [hy] at hz; rw [hli] at hy'
            cases hz; cases hy'
            exact ⟨sameBlk_of_sameVec m1, k1⟩
          · exact g5 j l' z y' (by omega) hl' hz hy'
        · intro j z y' hj hz hy'
          by_cases hji : j = i
          · subst hji
            rw [hmi] at hy'; cases hy'
            exact Or.inr rfl
          · exact g6 j z y' (by omega) hz hy'
    · -- a mini block
      rw [Bool.not_eq_true] at hc
      rw [hc] at hlong
      obtain ⟨o1, s1, l1⟩ := (vec_good junk 0).rt x none hxok
      refine ⟨o1 ++ o2, ?_, fun mol' lng mini rest hm' hlen hmlen hfl hfm => ?_⟩
      · simp only [mclSerLoop, hlong, hx, Option.bind_eq_bind, Option.bind_some, Bool.false_eq_true, if_false, s1]
        rw [s2, andThen_some]
      · have hf := List.getElem?_eq_getElem (l := mini) (i := i) (by omega)
        have hfe := hfm i _ (Nat.le_refl i) hf
        rw [hfe] at hf
        obtain ⟨w, e1, m1, k1⟩ := l1 fresh none none (o2 ++ rest) fresh_ok (by simp)
        obtain ⟨lng', mini', e2, g1, g2, g3, g4, g5, g6⟩ := l2 mol' lng (mini.set i w) rest hm'
          hlen (by rw [List.length_set]; exact hmlen)
          (fun j z hj hz => hfl j z (by omega) hz)
          (fun j z hj hz => by
            rw [List.getElem?_set_ne (by omega)] at hz; exact hfm j z (by omega) hz)
        rw [List.length_set] at g2
        have hmi : mini'[i]? = some w := by
          rw [(g3 i (by omega)).2, List.getElem?_set_self (by omega)]
        have hli : ∀ z, lng'[i]? = some z → z = fresh := by
          intro z hz
          rw [(g3 i (by omega)).1] at hz
          exact hfl i z (Nat.le_refl i) hz
        refine ⟨lng', mini', ?_, g1, g2, ?_, ?_, ?_, ?_⟩
        · simp only [mclLoadLoop, hm' i (by omega), hlong, hf, Option.bind_eq_bind, Option.bind_some, Bool.false_eq_true, if_false,
            List.append_assoc, e1, e2]
        · intro j hj
          obtain ⟨a, b⟩ := g3 j (by omega)
          rw [List.getElem?_set_ne (by omega)] at b
          exact ⟨a, b⟩
        · intro j z y' hj hz hy'
          by_cases hji : j = i
          · subst hji
            rw [hx] at hz; rw [hmi] at hy'
            cases hz; cases hy'
            exact ⟨sameBlk_of_sameVec m1, k1⟩
          · exact g4 j z y' (by omega) hz hy'
        · intro j l' z y' hj hl' hz hy'
          by_cases hji : j = i
          · subst hji
            have := hli y' hy'
            subst this
            have hne : x.size ≠ 0 := by
              rw [hl'] at hc
              simpa [isEmpty] using hc
            have hze := ((hv.long l' hl').2.2.2 j z x hz hx).resolve_right hne
            exact ⟨sameBlk_empty hze rfl, fresh_ok⟩
          · exact g5 j l' z y' (by omega) hl' hz hy'
        · intro j z y' hj hz hy'
          by_cases hji : j = i
          · subst hji
            have := hli z hz
            subst this
            exact Or.inl rfl
          · exact g6 j z y' (by omega) hz hy'

theorem forall2_of_get {α : Type} {R : α → α → Prop} {l l' : List α} (hl : l.length = l'.length)
    (h : ∀ (i : Nat) x y, l[i]? = some x → l'[i]? = some y → R x y) : List.Forall₂ R l l' := by
  rw [List.forall₂_iff_get]
  refine ⟨hl, fun i h1 h2 => h i _ _ (List.getElem?_eq_getElem h1) (List.getElem?_eq_getElem h2)⟩

theorem selMcl_good (junk : Nat → Word) : Good (selMcl junk) false okSel (lax okSel) sameSel := by
  refine ⟨fun v p hv => ?_, fun v w p p' h e => ⟨⟨e.cnt, e.super, e.mini, e.long⟩,
    ⟨rfl, h.cnt, h.super, h.mini, h.okMini, h.long⟩⟩⟩
  have hnum : v.m_arg_cnt < 256 ^ 8 := by have := hv.cnt; omega
  by_cases h0 : v.m_arg_cnt = 0
  · refine ⟨numBytes 8 v.m_arg_cnt, ?_, fun u q p' rest hu _ => ?_⟩
    · simp only [selMcl, mclSer, h0, ne_eq, not_true_eq_false, if_false, writeMember]
      simp [andThen, numBytes_length]
    · obtain ⟨_, hu⟩ := hu
      have hmn : v.m_miniblock = [] := by
        have := hv.mini; rw [if_pos h0] at this; exact List.length_eq_zero_iff.mp this
      have hln : v.m_longsuperblock = none := by
        cases hl : v.m_longsuperblock with
        | none => rfl
        | some l => exact absurd h0 (hv.long l hl).1
      refine ⟨⟨p', v.m_arg_cnt, u.m_superblock, none, []⟩, ?_, ⟨rfl, fun h => absurd h0 h, by rw [hmn]; exact .nil,
        by rw [hln]; exact .none⟩, ⟨rfl, hv.cnt, hu.super, by simp [h0], by simp, by simp⟩⟩
      simp only [selMcl, mclLoad, readMember_eq hnum, Option.bind_eq_bind, Option.bind_some]
      rw [if_neg (by simpa using h0)]
  · have hsb := sb_pos h0 hv.cnt
    have hml := hv.mini
    rw [if_neg h0] at hml
    obtain ⟨mol, m1, m2, m3, m4⟩ := molVec_spec junk hv h0
    have hil : ∀ i x, v.m_miniblock[i]? = some x → isLong mol i = some (v.m_longsuperblock.isSome && isEmpty x) := by
      intro i x hx
      unfold isLong
      by_cases hl : v.m_longsuperblock.isSome = true
      · rw [if_pos hl] at m3
        rw [if_neg (by simp only [isEmpty, beq_iff_eq]; omega), m4 i x hl hx, hl]
        simp
      · rw [if_neg hl] at m3
        rw [if_pos (by simp only [isEmpty, beq_iff_eq]; omega)]
        simp [hl]
    obtain ⟨o1, s1, l1⟩ := (vec_good junk 0).rt v.m_superblock none hv.super
    obtain ⟨o2, s2, l2⟩ := (vec_good junk 1).rt mol none m2
    obtain ⟨o3, s3, l3⟩ := mclLoops junk hv h0 (mol := mol) _ rfl hil (SelMcl.sb v.m_arg_cnt) 0 (by omega)
    refine ⟨numBytes 8 v.m_arg_cnt ++ (o1 ++ (o2 ++ o3)), ?_, fun u q p' rest hu _ => ?_⟩
    · simp only [selMcl, mclSer, writeMember]
      rw [if_pos h0, s1, m1]
      simp only [Option.bind_eq_bind, Option.bind_some, s2, s3, andThen_some]
      rw [← andThen_some (numBytes 8 v.m_arg_cnt), numBytes_length]
    · obtain ⟨_, hu⟩ := hu
      obtain ⟨w1, e1, q1, k1⟩ := l1 u.m_superblock none none (o2 ++ (o3 ++ rest)) hu.super (by simp)
      obtain ⟨w2, e2, q2, k2⟩ := l2 freshBits none none (o3 ++ rest) freshBits_ok (by simp)
      have hemp : isEmpty w2 = !v.m_longsuperblock.isSome := by
        unfold isEmpty
        rw [q2.2.1, m3]
        by_cases hl : v.m_longsuperblock.isSome = true
        · rw [if_pos hl, hl]; simpa using hsb
        · rw [if_neg hl]; simp [hl]
      obtain ⟨lng, mini, e3, g1, g2, -, g4, g5, g6⟩ := l3 w2
        (if isEmpty w2 then [] else List.replicate (SelMcl.sb v.m_arg_cnt) fresh) (List.replicate (SelMcl.sb v.m_arg_cnt) fresh)
        rest
        (fun j hj => by
          unfold isLong isEmpty
          rw [q2.2.1]
          by_cases hz : (mol.size == 0) = true
          · rw [if_pos hz, if_pos hz]
          · rw [if_neg hz, if_neg hz]
            have hl : v.m_longsuperblock.isSome = true := by
              by_contra hl; rw [if_neg hl] at m3; simp [m3] at hz
            rw [if_pos hl] at m3
            rw [get1_same m2.1 k2.1 (m2.2.2 (by decide)) q2 (by omega)])
        (by
          rw [hemp]
          by_cases hl : v.m_longsuperblock.isSome = true
          · simp [hl]
          · simp [hl])
        (by simp)
        (fun j x _ hx => by
          have := List.mem_of_getElem? hx
          split at this
          · simp at this
          · exact (List.mem_replicate.mp this).2)
        (fun j x _ hx => (List.mem_replicate.mp (List.mem_of_getElem? hx)).2)
      rw [List.length_replicate] at g2
      refine ⟨⟨p', v.m_arg_cnt, w1, if isEmpty w2 then none else some lng, mini⟩, ?_, ?_, ?_⟩
      · simp only [selMcl, mclLoad, List.append_assoc, readMember_eq hnum, Option.bind_eq_bind, Option.bind_some]
        rw [if_pos h0]
        simp only [e1, e2, e3, Option.bind_some]
      · refine ⟨rfl, fun _ => q1, forall2_of_get (by rw [g2, hml]) (fun i x y hx hy => (g4 i x y (by omega) hx hy).1), ?_⟩
        rw [hemp]
        cases hl : v.m_longsuperblock with
        | none => simp [Option.Rel.none]
        | some l =>
          rw [hemp, hl] at g1
          simp only [Option.isSome_some, Bool.not_true, Bool.false_eq_true, if_false, List.length_replicate] at g1 ⊢
          have hll := (hv.long l hl).2.1
          refine .some (forall2_of_get (by rw [List.length_take, List.length_take]; omega) (fun i x y hx hy => ?_))
          rw [List.getElem?_take] at hx hy
          split at hx
          · rw [if_pos (by assumption)] at hy
            exact (g5 i l x y (by omega) hl hx hy).1
          · cases hx
      · refine ⟨rfl, hv.cnt, k1, by rw [if_neg h0]; exact g2, ?_, ?_⟩
        · intro y hy
          obtain ⟨i, hi, e⟩ := List.getElem_of_mem hy
          simp only at hi
          have hi2 : i < v.m_miniblock.length := by omega
          exact (g4 i _ y (by omega) (List.getElem?_eq_getElem hi2) (by rw [← e]; exact List.getElem?_eq_getElem hi)).2
        · intro l hl
          simp only at hl
          rw [hemp] at hl
          cases hvl : v.m_longsuperblock with
          | none => rw [hvl] at hl; simp at hl
          | some lv =>
            rw [hvl] at hl
            simp only [Option.isSome_some, Bool.not_true, Bool.false_eq_true, if_false, Option.some.injEq] at hl
            subst hl
            rw [hemp, hvl] at g1
            simp only [Option.isSome_some, Bool.not_true, Bool.false_eq_true, if_false, List.length_replicate] at g1
            obtain ⟨-, hll, -, -⟩ := hv.long lv hvl
            refine ⟨h0, by show SelMcl.sb v.m_arg_cnt ≤ _; omega, ?_, fun i x y hx hy => g6 i x y (by omega) hx hy⟩
            intro y hy
            obtain ⟨i, hi, e⟩ := List.getElem_of_mem hy
            exact (g5 i lv _ y (by omega) hvl (List.getElem?_eq_getElem (by omega))
              (by rw [← e]; exact List.getElem?_eq_getElem hi)).2

end Sdsl.Serial
