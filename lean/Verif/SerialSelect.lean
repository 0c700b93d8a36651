/-
  Serialization of a `select_support_mcl` that was built for a bit vector (select_support_mcl.hpp).
-/
import Verif.SerialMcl
import Verif.SelectFast

namespace Sdsl.Select
open Bits Spec Rank IntVec Util

/-- A superblock has a long or a mini block, not both; the superblocks from `c` on have none. -/
structure Apart (sb : Nat) (long : Option (List Arr)) (mini : List Arr) (c : Nat) : Prop where
  miniLen : mini.length = sb
  longLen : ∀ l, long = some l → sb ≤ l.length
  apart : ∀ l (i : Nat) (x y : Arr), long = some l → l[i]? = some x → mini[i]? = some y → x.xs = [] ∨ y.xs = []
  restL : ∀ l (i : Nat) (x : Arr), long = some l → c ≤ i → l[i]? = some x → x.xs = []
  restM : ∀ (i : Nat) (y : Arr), c ≤ i → mini[i]? = some y → y.xs = []

theorem replicate_empty {n i : Nat} {x : Arr} (h : (List.replicate n Arr.empty)[i]? = some x) : x.xs = [] := by
  have := List.mem_of_getElem? h
  rw [(List.mem_replicate.1 this).2]; rfl

theorem Apart.init (sb : Nat) : Apart sb none (List.replicate sb Arr.empty) 0 :=
  ⟨by simp, by simp, by simp, by simp, fun _ _ _ h => replicate_empty h⟩

theorem setList_inv {α : Type} {l l' : List α} {i : Nat} {x : α} (h : setList l i x = some l') : i < l.length ∧ l' = l.set i x := by
  unfold setList at h
  split at h
  · simp only [Option.some.injEq] at h; exact ⟨by assumption, h.symm⟩
  · cases h

theorem Apart.addLong {sb L c : Nat} {long : Option (List Arr)} {mini : List Arr} (h : Apart sb long mini c) (hL : sb ≤ L) {a : Arr}
    {l : List Arr} (e : setList (long.getD (List.replicate L Arr.empty)) c a = some l) : Apart sb (some l) mini (c + 1) := by
  obtain ⟨e1, e2⟩ := setList_inv e
  have h1 : sb ≤ (long.getD (List.replicate L Arr.empty)).length := by
    cases hl : long with
    | none => simpa using hL
    | some l => simpa using h.longLen l hl
  have h2 : ∀ (i : Nat) (x y : Arr), (long.getD (List.replicate L Arr.empty))[i]? = some x → mini[i]? = some y → x.xs = [] ∨ y.xs = [] := by
    intro i x y hx hy
    cases hl : long with
    | none => rw [hl] at hx; exact .inl (replicate_empty hx)
    | some l => rw [hl] at hx; exact h.apart l i x y hl hx hy
  have h3 : ∀ (i : Nat) (x : Arr), c ≤ i → (long.getD (List.replicate L Arr.empty))[i]? = some x → x.xs = [] := by
    intro i x hi hx
    cases hl : long with
    | none => rw [hl] at hx; exact replicate_empty hx
    | some l => rw [hl] at hx; exact h.restL l i x hl hi hx
  subst e2
  refine ⟨h.miniLen, ?_, ?_, ?_, fun i y hi => h.restM i y (by omega)⟩
  · intro l hl; simp only [Option.some.injEq] at hl; subst hl; simpa using h1
  · intro l i x y hl hx hy; simp only [Option.some.injEq] at hl; subst hl
    by_cases hi : c = i
    · subst hi; exact .inr (h.restM c y (Nat.le_refl _) hy)
    · rw [List.getElem?_set_ne hi] at hx; exact h2 i x y hx hy
  · intro l i x hl hi hx; simp only [Option.some.injEq] at hl; subst hl
    rw [List.getElem?_set_ne (by omega)] at hx; exact h3 i x (by omega) hx

theorem Apart.addMini {sb c : Nat} {long : Option (List Arr)} {mini m : List Arr} (h : Apart sb long mini c) {a : Arr}
    (e : setList mini c a = some m) : Apart sb long m (c + 1) := by
  obtain ⟨e1, e2⟩ := setList_inv e
  subst e2
  refine ⟨by simpa using h.miniLen, h.longLen, ?_, fun l i x hl hi => h.restL l i x hl (by omega), fun i y hi hy => ?_⟩
  · intro l i x y hl hx hy
    by_cases hi : c = i
    · subst hi; exact .inl (h.restL l c x hl (Nat.le_refl _) hx)
    · rw [List.getElem?_set_ne hi] at hy; exact h.apart l i x y hl hx hy
  · rw [List.getElem?_set_ne (by omega)] at hy; exact h.restM i y (by omega) hy

theorem slowFlush_apart {logn4 sb : Nat} {s s' : BSt} (h : Apart sb s.long s.mini s.sbCnt) (e : slowFlush logn4 sb s = some s') :
    Apart sb s'.long s'.mini s'.sbCnt := by
  unfold slowFlush at e
  simp only [Option.bind_eq_bind, Option.bind_eq_some_iff, Option.pure_def] at e
  obtain ⟨p0, -, last, -, sup, -, e⟩ := e
  split at e
  · simp only [Option.bind_eq_some_iff, Option.some.injEq] at e
    obtain ⟨w, -, a, -, l, hl, rfl⟩ := e
    exact h.addLong (Nat.le_refl _) hl
  · simp only [Option.bind_eq_some_iff, Option.some.injEq] at e
    obtain ⟨w, -, a, -, m, hm, rfl⟩ := e
    exact h.addMini hm

theorem slowStep_apart {pat : Pat} {v : IntVec} {logn4 sb total i : Nat} {s s' : BSt} (h : Apart sb s.long s.mini s.sbCnt)
    (e : slowStep pat v logn4 sb total i s = some s') : Apart sb s'.long s'.mini s'.sbCnt := by
  unfold slowStep at e
  simp only [Option.bind_eq_bind, Option.bind_eq_some_iff, Option.pure_def] at e
  obtain ⟨b, -, e⟩ := e
  split at e
  · simp only [Option.bind_eq_some_iff] at e
    obtain ⟨pos, -, e⟩ := e
    split at e
    · exact slowFlush_apart (s := { s with pos := pos, cnt := s.cnt + 1 }) h e
    · simp only [Option.some.injEq] at e; subst e; exact h
  · simp only [Option.some.injEq] at e; subst e; exact h

theorem slowLoop_apart {pat : Pat} {v : IntVec} {logn4 sb total : Nat} : ∀ (k i : Nat) (s s' : BSt),
    Apart sb s.long s.mini s.sbCnt → slowLoop pat v logn4 sb total i k s = some s' → Apart sb s'.long s'.mini s'.sbCnt := by
  intro k
  induction k with
  | zero => intro i s s' h e; simp only [slowLoop, Option.some.injEq] at e; subst e; exact h
  | succ k ih =>
    intro i s s' h e
    simp only [slowLoop, Option.bind_eq_bind, Option.bind_eq_some_iff] at e
    obtain ⟨s1, e1, e2⟩ := e
    exact ih _ s1 s' (slowStep_apart h e1) e2

theorem fastFlush_apart {pat : Pat} {v : IntVec} {logn4 sb : Nat} {s s' : BSt} (h : Apart sb s.long s.mini s.sbCnt)
    (e : fastFlush pat v logn4 sb s = some s') : Apart sb s'.long s'.mini s'.sbCnt := by
  unfold fastFlush at e
  simp only [Option.bind_eq_bind, Option.bind_eq_some_iff, Option.pure_def] at e
  obtain ⟨p0, -, pl, -, sup, -, last, -, e⟩ := e
  split at e
  · simp only [Option.bind_eq_some_iff, Option.some.injEq] at e
    obtain ⟨w, -, a, -, l, hl, rfl⟩ := e
    exact h.addLong (Nat.le_succ _) hl
  · simp only [Option.bind_eq_some_iff, Option.some.injEq] at e
    obtain ⟨w, -, a, -, m, hm, rfl⟩ := e
    exact h.addMini hm

theorem fastLoop_apart {pat : Pat} {v : IntVec} {logn4 sb : Nat} : ∀ (n w : Nat) (c : Word) (last lsum : Nat) (s s' : BSt) (q : Nat),
    Apart sb s.long s.mini s.sbCnt → fastLoop pat v logn4 sb w n c last lsum s = some (s', q) → Apart sb s'.long s'.mini s'.sbCnt := by
  intro n
  induction n with
  | zero => intro w c last lsum s s' q h e; simp only [fastLoop, Option.some.injEq, Prod.mk.injEq] at e; rw [← e.1]; exact h
  | succ n ih =>
    intro w c last lsum s s' q h e
    simp only [fastLoop, Option.bind_eq_bind, Option.bind_eq_some_iff] at e
    obtain ⟨x, -, e⟩ := e
    split at e
    · simp only [Option.bind_eq_some_iff] at e
      obtain ⟨p, -, pos, -, e⟩ := e
      split at e
      · simp only [Option.bind_eq_some_iff] at e
        obtain ⟨s1, e1, e⟩ := e
        exact ih _ _ _ _ s1 s' q (fastFlush_apart (s := { s with pos := pos, cnt := _ }) h e1) e
      · exact ih _ _ _ _ { s with pos := pos, cnt := _ } s' q h e
    · refine ih _ _ _ _ _ s' q ?_ e
      exact h

/-- Shape of a support that was built. -/
theorem mclBuild_apart {pat : Pat} {junk : Nat → Nat} {v : IntVec} {t : Mcl} (e : mclBuild pat junk v = some t) :
    (t.argCnt = 0 ∧ t.mini = [] ∧ t.long = none) ∨
      (t.argCnt ≠ 0 ∧ ∃ c, Apart ((t.argCnt + 4095) / 4096) t.long t.mini c) := by
  unfold mclBuild at e
  split at e
  · unfold initSlow at e
    simp only [Option.bind_eq_bind, Option.bind_eq_some_iff, Option.pure_def] at e
    obtain ⟨lg, -, total, -, e⟩ := e
    split at e
    · simp only [Option.some.injEq] at e; subst e; exact .inl ⟨rfl, rfl, rfl⟩
    · simp only [Option.bind_eq_some_iff, Option.some.injEq] at e
      obtain ⟨s, es, rfl⟩ := e
      exact .inr ⟨by assumption, s.sbCnt, slowLoop_apart _ _ _ s (Apart.init _) es⟩
  · unfold initFast at e
    simp only [Option.bind_eq_bind, Option.bind_eq_some_iff, Option.pure_def] at e
    obtain ⟨lg, -, total, -, e⟩ := e
    split at e
    · simp only [Option.some.injEq] at e; subst e; exact .inl ⟨rfl, rfl, rfl⟩
    · simp only [Option.bind_eq_some_iff] at e
      obtain ⟨⟨s, q⟩, es, e⟩ := e
      have h := fastLoop_apart _ _ _ _ _ _ s q (Apart.init _) es
      split at e
      · simp only [Option.bind_eq_some_iff, Option.some.injEq] at e
        obtain ⟨p0, -, w, -, a, -, l, hl, rfl⟩ := e
        exact .inr ⟨by assumption, s.sbCnt + 1, h.addLong (Nat.le_succ _) hl⟩
      · simp only [Option.some.injEq] at e
        subst e
        exact .inr ⟨by assumption, s.sbCnt, h⟩

/-- `select` reads nothing but the elements of the blocks of its superblock. -/
theorem mclSelect_congr {pat : Pat} {v : IntVec} {s s' : Mcl} {i : Nat} (h1 : s'.sup.xs = s.sup.xs)
    (h2 : (s'.mini[(i - 1) / 4096]?).map Arr.xs = (s.mini[(i - 1) / 4096]?).map Arr.xs)
    (h3 : s'.long.map (fun l => (l[(i - 1) / 4096]?).map Arr.xs) = s.long.map (fun l => (l[(i - 1) / 4096]?).map Arr.xs)) :
    mclSelect pat v s' i = mclSelect pat v s i := by
  have hs : shortSelect pat v s' (i - 1) = shortSelect pat v s (i - 1) := by
    unfold shortSelect
    dsimp only
    simp only [Arr.get, h1]
    cases a : s.mini[(i - 1) / 4096]? <;> cases b : s'.mini[(i - 1) / 4096]? <;> simp_all
  have hl : (longBlock s' ((i - 1) / 4096)).map (Option.map Arr.xs) = (longBlock s ((i - 1) / 4096)).map (Option.map Arr.xs) := by
    unfold longBlock
    cases a : s.long <;> cases b : s'.long <;> simp only [a, b, Option.map_none, Option.map_some, reduceCtorEq, Option.some.injEq] at h3 ⊢
    rename_i l l'
    cases c : l[(i - 1) / 4096]? <;> cases d : l'[(i - 1) / 4096]? <;> simp_all
    split <;> simp_all
  unfold mclSelect
  rw [hs]
  cases a : longBlock s ((i - 1) / 4096) <;> cases b : longBlock s' ((i - 1) / 4096) <;> simp_all
  rename_i x y
  cases x <;> cases y <;> simp_all [Arr.get]

end Sdsl.Select

namespace Sdsl.Serial
open IntVec Spec Rank
open Select (Mcl)

/-- A vector by its elements, as in Select.lean. -/
def arrOf (v : IntVec) : Arr := ⟨v.width, v.elems⟩

/-- A support by the elements of its vectors, as in Select.lean. -/
def SelMcl.toMcl (x : SelMcl) : Mcl :=
  ⟨x.m_arg_cnt, arrOf x.m_superblock, x.m_longsuperblock.map (·.map arrOf), x.m_miniblock.map arrOf⟩

/-- An `int_vector<0>` of whole elements. -/
def okWhole (v : IntVec) : Prop := okVec 0 v none ∧ v.size % v.width = 0

/-- The vectors of a support are possible vectors. -/
structure okParts (x : SelMcl) : Prop where
  super : okVec 0 x.m_superblock none
  mini : ∀ y ∈ x.m_miniblock, okWhole y
  long : ∀ l, x.m_longsuperblock = some l → ∀ y ∈ l, okWhole y

theorem okWhole.zero {v : IntVec} (h : okWhole v) (e : v.elems = []) : v.size = 0 := by
  have h1 := elems_length v
  rw [e, List.length_nil] at h1
  have h2 := Nat.div_add_mod v.size v.width
  rw [← h1, h.2] at h2
  simpa using h2.symm

theorem sb_eq {n : Nat} (h : n + 4095 < 2 ^ 64) : SelMcl.sb n = (n + 4095) / 4096 := by
  unfold SelMcl.sb
  rw [Nat.mod_eq_of_lt h]

/-- What was built can be written. -/
theorem okSel_of_build {pat : Pat} {junk : Nat → Nat} {v : IntVec} {x : SelMcl} (e : Select.mclBuild pat junk v = some x.toMcl)
    (hx : okParts x) (hn : x.m_arg_cnt + 4095 < 2 ^ 64) : okSel x x.m_v := by
  have hm : ∀ y ∈ x.m_miniblock, okVec 0 y none := fun y hy => (hx.mini y hy).1
  rcases Select.mclBuild_apart e with ⟨h0, h1, h2⟩ | ⟨h0, c, h⟩
  · have h0' : x.m_arg_cnt = 0 := h0
    have h1' : x.m_miniblock = [] := by simpa [SelMcl.toMcl] using h1
    have h2' : x.m_longsuperblock = none := by simpa [SelMcl.toMcl] using h2
    exact ⟨rfl, hn, hx.super, by simp [h0', h1'], hm, by simp [h2']⟩
  · have h0' : x.m_arg_cnt ≠ 0 := h0
    have hml := h.miniLen
    simp only [SelMcl.toMcl, List.length_map] at hml
    refine ⟨rfl, hn, hx.super, by rw [if_neg h0', sb_eq hn, hml], hm, fun l hl => ⟨h0', ?_, fun y hy => (hx.long l hl y hy).1, ?_⟩⟩
    · have := h.longLen (l.map arrOf) (by simp [SelMcl.toMcl, hl])
      rw [sb_eq hn]
      simpa [SelMcl.toMcl] using this
    · intro i a b ha hb
      rcases h.apart (l.map arrOf) i (arrOf a) (arrOf b) (by simp [SelMcl.toMcl, hl]) (by simp [ha]) (by simp [SelMcl.toMcl, hb]) with q | q
      · exact .inl ((hx.long l hl a (List.mem_of_getElem? ha)).zero q)
      · exact .inr ((hx.mini b (List.mem_of_getElem? hb)).zero q)

theorem forall2_get {l l' : List IntVec} (h : List.Forall₂ sameBlk l l') : ∀ (i : Nat),
    (l'[i]?).map IntVec.elems = (l[i]?).map IntVec.elems := by
  induction h with
  | nil => intro i; rfl
  | cons h1 h2 ih =>
    intro i
    cases i with
    | zero => simp [h1.2.1]
    | succ i => simpa using ih i

theorem arrOf_xs : (Arr.xs ∘ arrOf) = IntVec.elems := rfl

/-- Supports with the same contents give the same answers. -/
theorem select_of_same {pat : Pat} {v : IntVec} {x y : SelMcl} (hn : x.m_arg_cnt + 4095 < 2 ^ 64) (h : sameSel x y) {i : Nat} (h1 : 1 ≤ i)
    (h2 : i ≤ x.m_arg_cnt) : Select.mclSelect pat v y.toMcl i = Select.mclSelect pat v x.toMcl i := by
  have hk : (i - 1) / 4096 < SelMcl.sb x.m_arg_cnt := by rw [sb_eq hn]; omega
  refine Select.mclSelect_congr (h.super (by omega)).2.2 ?_ ?_
  · have := forall2_get h.mini ((i - 1) / 4096)
    simpa [SelMcl.toMcl, arrOf_xs] using this
  · have := h.long
    cases a : x.m_longsuperblock <;> cases b : y.m_longsuperblock <;> rw [a, b] at this <;> cases this
    · simp [SelMcl.toMcl, a, b]
    · rename_i l l' q
      have := forall2_get q ((i - 1) / 4096)
      simp only [List.getElem?_take, if_pos hk] at this
      simpa [SelMcl.toMcl, a, b, arrOf_xs] using this

end Sdsl.Serial

namespace Sdsl.Serial
open IntVec Spec Rank

/-- Vectors with the same elements have the same bits. -/
theorem bits_of_same {v w : IntVec} (h1 : v.width = 1) (h : sameVec v w) {i : Nat} (hi : i < v.size) : bitAt w.data i = bitAt v.data i := by
  obtain ⟨e1, e2, e3⟩ := h
  have ha := elems_get? v i
  have hb := elems_get? w i
  rw [e3, ha, e1, e2, h1, Nat.div_one, if_pos hi, if_pos hi] at hb
  simp only [Option.some.injEq, elem, h1, e1, field, bitsVal, Nat.mul_one, Nat.add_zero] at hb
  cases hx : bitAt v.data i <;> cases hy : bitAt w.data i <;> simp_all

theorem occ_of_bits {m m' : Mem} {n : Nat} (h : ∀ i, i < n → bitAt m' i = bitAt m i) (pat : Pat) {i : Nat} (hi : i < n) :
    occ pat m' i = occ pat m i := by
  unfold occ endsAt
  have h1 : ∀ (j : Nat), j ≤ i → bitAt m' j = bitAt m j := fun j hj => h j (by omega)
  cases pat <;> simp [Pat.bits, List.range_succ] <;> (try rw [h1 i (Nat.le_refl _)]) <;> cases i <;> simp_all

theorem R_of_bits {m m' : Mem} {n : Nat} (h : ∀ i, i < n → bitAt m' i = bitAt m i) (pat : Pat) {i : Nat} (hi : i ≤ n) :
    R pat m' i = R pat m i := countTrue_congr (fun j hj => occ_of_bits h pat (by omega))

theorem Blk_of_bits {pat : Pat} {m m' : Mem} {n t : Nat} (h : ∀ i, i < n → bitAt m' i = bitAt m i) {sup : Arr} {long : Option (List Arr)}
    {mini : List Arr} (hb : Select.Blk pat m (R pat m n) sup long mini t) : Select.Blk pat m' (R pat m n) sup long mini t := by
  have hat : ∀ q p, q < R pat m n → Select.At pat m q p → Select.At pat m' q p := by
    intro q p hq hp
    have hlt := hp.lt (n := n) hq
    exact ⟨by rw [occ_of_bits h pat hlt]; exact hp.1, by rw [R_of_bits h pat (by omega)]; exact hp.2⟩
  rcases hb with ⟨l, a, e1, e2, hne, ha⟩ | ⟨hl, p0, a, e1, e2, ha⟩
  · refine .inl ⟨l, a, e1, e2, hne, fun o h1 h2 => ?_⟩
    obtain ⟨p, q1, q2⟩ := ha o h1 h2
    exact ⟨p, q1, hat _ _ h2 q2⟩
  · refine .inr ⟨hl, p0, a, e1, e2, fun o h1 h2 => ?_⟩
    obtain ⟨d, q1, q2⟩ := ha o h1 h2
    exact ⟨d, q1, hat _ _ h2 q2⟩

theorem wordRank_of_bits {pat : Pat} {m m' : Mem} {n idx : Nat} (h : ∀ i, i < n → bitAt m' i = bitAt m i) (hi : idx ≤ n)
    (h1 : idx / 64 < m.length) (h2 : idx / 64 < m'.length) : wordRank pat m' idx = wordRank pat m idx := by
  obtain ⟨w, e, hw⟩ := wordRank_R pat h1
  obtain ⟨w', e', hw'⟩ := wordRank_R pat h2
  rw [R_of_bits h pat hi, R_of_bits h pat (by omega), hw] at hw'
  rw [e, e']
  congr 1
  exact BitVec.eq_of_toNat_eq (by omega)

/-- `rank_support_v::rank` depends on the bits of the vector only. -/
theorem V_rank_of_bits {pat : Pat} {v w : IntVec} (h : ∀ i, i < v.size → bitAt w.data i = bitAt v.data i) (bb : Mem) {i : Nat} (hi : i ≤ v.size)
    (h1 : (v.size + 63) / 64 ≤ v.data.length) (h2 : (v.size + 63) / 64 ≤ w.data.length) :
    Rank.V.rank pat w bb i = Rank.V.rank pat v bb i := by
  unfold Rank.V.rank
  by_cases h0 : i % 64 ≠ 0
  · simp only [if_pos h0, wordRank_of_bits h hi (show i / 64 < v.data.length by omega) (show i / 64 < w.data.length by omega)]
  · simp only [if_neg h0]

/-- `rank_support_v5::rank` depends on the bits of the vector only. -/
theorem V5_rank_of_bits {pat : Pat} {v w : IntVec} (h : ∀ i, i < v.size → bitAt w.data i = bitAt v.data i) (bb : Mem) {i : Nat} (hi : i < v.size)
    (h1 : (v.size + 63) / 64 ≤ v.data.length) (h2 : (v.size + 63) / 64 ≤ w.data.length) :
    Rank.V5.rank pat w bb i = Rank.V5.rank pat v bb i := by
  have hl : ∀ r, Rank.V5.rankLoop pat w.data ((i - i % 64) / 64 % 32 % 6) (i - i % 64) r =
      Rank.V5.rankLoop pat v.data ((i - i % 64) / 64 % 32 % 6) (i - i % 64) r := by
    intro r
    have hk : (i - i % 64) / 64 % 32 % 6 ≤ i / 64 := by omega
    generalize (i - i % 64) / 64 % 32 % 6 = k at *
    have e : i - i % 64 = 64 * (i / 64 - k + k) := by omega
    rw [e, Rank.V5.rankLoop_eq _ _ _ (by omega), Rank.V5.rankLoop_eq _ _ _ (by omega), R_of_bits h pat (by omega),
      R_of_bits h pat (by omega)]
  unfold Rank.V5.rank
  simp only [wordRank_of_bits h (Nat.le_of_lt hi) (show i / 64 < v.data.length by omega) (show i / 64 < w.data.length by omega), hl]

/-- The words of an `int_vector<64>`. -/
def wordsOf (v : IntVec) : Mem := v.elems.map (BitVec.ofNat 64)

end Sdsl.Serial
