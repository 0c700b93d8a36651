/-
  Every support that can be built can be stored in vectors (select_support_mcl.hpp).
-/
import Verif.SerialSelect
import Verif.Props.ArrBridge

namespace Sdsl.Serial
open IntVec Spec Bits

/-- An array that an `int_vector<0>` of at most `n` elements can hold. -/
def Fits (n : Nat) (a : Arr) : Prop := (1 ≤ a.width ∧ a.width ≤ 64) ∧ (∀ x ∈ a.xs, x < 2 ^ a.width) ∧ a.xs.length ≤ n

theorem Fits.store {n : Nat} {a : Arr} (h : Fits n a) (hn : n < 2 ^ 57) : ∃ v, okWhole v ∧ arrOf v = a := by
  obtain ⟨hw, hx, hl⟩ := h
  obtain ⟨v, -, h2, h3, h4, h5⟩ := Props.C11_ctor 0 (fun _ => 0#64) none a.xs.length 0#64 a.width (by omega) (fun _ => hw) (Or.inr (Or.inl rfl))
  rw [if_pos rfl] at h3
  obtain ⟨v', e1, e2, e3, e4, -, e6⟩ := Props.C11_history v h2 (((a.xs.map (BitVec.ofNat 64)).zipIdx 0).map fun p => ElemOp.assign p.2 p.1) (by
    intro op hop j hj
    obtain ⟨p, hp, rfl⟩ := List.mem_map.1 hop
    simp only [ElemOp.idxs, List.mem_singleton] at hj
    subst hj
    have := List.snd_lt_add_of_mem_zipIdx hp
    simp only [List.length_map, Nat.zero_add] at this
    rw [h4, Nat.mul_div_cancel _ (by omega)]
    exact this)
  rw [Props.foldl_assign 0 _ (by rw [h5]; simp)] at e6
  have hel : v'.elems = a.xs := by
    rw [e6, List.take_zero, List.nil_append, List.map_map]
    conv => rhs; rw [← List.map_id a.xs]
    refine List.map_congr_left (fun x hx' => ?_)
    have h1 := hx x hx'
    have h2 : 2 ^ a.width ≤ 2 ^ 64 := Nat.pow_le_pow_right (by decide) hw.2
    simp only [Function.comp, id, BitVec.toNat_ofNat, h3]
    rw [Nat.mod_eq_of_lt (show x < 2 ^ 64 by omega), Nat.mod_eq_of_lt h1]
  refine ⟨v', ⟨⟨e2, ?_, by simp⟩, ?_⟩, ?_⟩
  · rw [e3, h4, h3]
    have : a.xs.length * a.width ≤ n * 64 := Nat.mul_le_mul hl hw.2
    omega
  · rw [e3, e4, h4]; exact Nat.mul_mod_left _ _
  · unfold arrOf
    rw [e4, h3, hel]

theorem Fits.store_list {n : Nat} (hn : n < 2 ^ 57) : ∀ {l : List Arr}, (∀ a ∈ l, Fits n a) → ∃ k : List IntVec, (∀ v ∈ k, okWhole v) ∧ k.map arrOf = l := by
  intro l
  induction l with
  | nil => intro _; exact ⟨[], by simp, rfl⟩
  | cons a l ih =>
    intro h
    obtain ⟨v, h1, h2⟩ := (h a (by simp)).store hn
    obtain ⟨k, h3, h4⟩ := ih (fun b hb => h b (by simp [hb]))
    exact ⟨v :: k, by simp; exact ⟨h1, h3⟩, by simp [h2, h4]⟩

theorem Fits.new {n m x w : Nat} (h : n ≤ m) : Fits m (Arr.new n x w) := by
  have hc : 1 ≤ clampWidth w ∧ clampWidth w ≤ 64 := by unfold clampWidth; split <;> omega
  refine ⟨hc, ?_, by simpa [Arr.new] using h⟩
  intro y hy
  simp only [Arr.new, List.mem_replicate] at hy
  rw [hy.2]
  exact Nat.mod_lt _ (Nat.pow_pos (by decide))

theorem Fits.empty {m : Nat} : Fits m Arr.empty := ⟨by simp [Arr.empty], by simp [Arr.empty], by simp [Arr.empty]⟩

theorem Fits.set {m i x : Nat} {a b : Arr} (h : Fits m a) (e : a.set i x = some b) : Fits m b := by
  unfold Arr.set at e
  split at e
  · simp only [Option.some.injEq] at e
    subst e
    refine ⟨h.1, ?_, by simpa using h.2.2⟩
    intro y hy
    rcases List.mem_or_eq_of_mem_set hy with q | q
    · exact h.2.1 y q
    · rw [q]; exact Nat.mod_lt _ (Nat.pow_pos (by decide))
  · cases e

theorem Fits.fill {m : Nat} {f : Nat → Option Nat} : ∀ (k j : Nat) {a b : Arr}, Fits m a → Select.fillArr f j k a = some b → Fits m b := by
  intro k
  induction k with
  | zero => intro j a b h e; simp only [Select.fillArr, Option.some.injEq] at e; subst e; exact h
  | succ k ih =>
    intro j a b h e
    simp only [Select.fillArr, Option.bind_eq_bind, Option.bind_eq_some_iff] at e
    obtain ⟨x, -, c, e1, e2⟩ := e
    exact ih _ (h.set e1) e2

theorem Fits.longLoop {m : Nat} {pat : Pat} {v : IntVec} {lim : Option Nat} : ∀ (n j k : Nat) {a b : Arr}, Fits m a →
    Select.longLoop pat v lim j n k a = some b → Fits m b := by
  intro n
  induction n with
  | zero => intro j k a b h e; simp only [Select.longLoop, Option.some.injEq] at e; subst e; exact h
  | succ n ih =>
    intro j k a b h e
    simp only [Select.longLoop] at e
    split at e
    · simp only [Option.bind_eq_bind, Option.bind_eq_some_iff] at e
      obtain ⟨x, -, e⟩ := e
      split at e
      · simp only [Option.bind_eq_some_iff] at e
        obtain ⟨c, e1, e2⟩ := e
        exact ih _ _ (h.set e1) e2
      · exact ih _ _ h e
    · simp only [Option.some.injEq] at e; subst e; exact h

/-- All arrays of a support fit. -/
structure AllFit (n : Nat) (sup : Arr) (long : Option (List Arr)) (mini : List Arr) : Prop where
  sup : Fits n sup
  long : ∀ l, long = some l → ∀ a ∈ l, Fits 4096 a
  mini : ∀ a ∈ mini, Fits 64 a

theorem AllFit.setLong {n L c : Nat} {sup : Arr} {long : Option (List Arr)} {mini : List Arr} (h : AllFit n sup long mini) {a : Arr} {l : List Arr}
    (ha : Fits 4096 a) (e : setList (long.getD (List.replicate L Arr.empty)) c a = some l) : AllFit n sup (some l) mini := by
  obtain ⟨-, e2⟩ := Select.setList_inv e
  refine ⟨h.sup, ?_, h.mini⟩
  intro l' hl b hb
  simp only [Option.some.injEq] at hl
  subst hl e2
  rcases List.mem_or_eq_of_mem_set hb with q | q
  · cases hl : long with
    | none =>
      rw [hl] at q
      rw [(List.mem_replicate.1 q).2]
      exact Fits.empty
    | some l => rw [hl] at q; exact h.long l hl b q
  · rw [q]; exact ha

theorem AllFit.setMini {n c : Nat} {sup : Arr} {long : Option (List Arr)} {mini m : List Arr} (h : AllFit n sup long mini) {a : Arr}
    (ha : Fits 64 a) (e : setList mini c a = some m) : AllFit n sup long m := by
  obtain ⟨-, e2⟩ := Select.setList_inv e
  refine ⟨h.sup, h.long, ?_⟩
  intro b hb
  subst e2
  rcases List.mem_or_eq_of_mem_set hb with q | q
  · exact h.mini b q
  · rw [q]; exact ha

open Select

theorem slowFlush_fit {n logn4 sb : Nat} {s s' : BSt} (h : AllFit n s.sup s.long s.mini) (e : slowFlush logn4 sb s = some s') :
    AllFit n s'.sup s'.long s'.mini := by
  unfold slowFlush at e
  simp only [Option.bind_eq_bind, Option.bind_eq_some_iff, Option.pure_def] at e
  obtain ⟨p0, -, last, -, sup, hsup, e⟩ := e
  have h' : AllFit n sup s.long s.mini := ⟨h.sup.set hsup, h.long, h.mini⟩
  split at e
  · simp only [Option.bind_eq_some_iff, Option.some.injEq] at e
    obtain ⟨w, -, a, ha, l, hl, rfl⟩ := e
    exact h'.setLong (Fits.fill _ _ (Fits.new (Nat.le_refl _)) ha) hl
  · simp only [Option.bind_eq_some_iff, Option.some.injEq] at e
    obtain ⟨w, -, a, ha, m, hm, rfl⟩ := e
    exact h'.setMini (Fits.fill _ _ (Fits.new (Nat.le_refl _)) ha) hm

theorem slowLoop_fit {n : Nat} {pat : Pat} {v : IntVec} {logn4 sb total : Nat} : ∀ (k i : Nat) (s s' : BSt),
    AllFit n s.sup s.long s.mini → slowLoop pat v logn4 sb total i k s = some s' → AllFit n s'.sup s'.long s'.mini := by
  intro k
  induction k with
  | zero => intro i s s' h e; simp only [slowLoop, Option.some.injEq] at e; subst e; exact h
  | succ k ih =>
    intro i s s' h e
    simp only [slowLoop, Option.bind_eq_bind, Option.bind_eq_some_iff] at e
    obtain ⟨s1, e1, e2⟩ := e
    refine ih _ s1 s' ?_ e2
    unfold slowStep at e1
    simp only [Option.bind_eq_bind, Option.bind_eq_some_iff, Option.pure_def] at e1
    obtain ⟨b, -, e⟩ := e1
    split at e
    · simp only [Option.bind_eq_some_iff] at e
      obtain ⟨pos, -, e⟩ := e
      split at e
      · exact slowFlush_fit (s := { s with pos := pos, cnt := s.cnt + 1 }) h e
      · simp only [Option.some.injEq] at e; subst e; exact h
    · simp only [Option.some.injEq] at e; subst e; exact h

theorem fastFlush_fit {n : Nat} {pat : Pat} {v : IntVec} {logn4 sb : Nat} {s s' : BSt} (h : AllFit n s.sup s.long s.mini)
    (e : fastFlush pat v logn4 sb s = some s') : AllFit n s'.sup s'.long s'.mini := by
  unfold fastFlush at e
  simp only [Option.bind_eq_bind, Option.bind_eq_some_iff, Option.pure_def] at e
  obtain ⟨p0, -, pl, -, sup, hsup, last, -, e⟩ := e
  have h' : AllFit n sup s.long s.mini := ⟨h.sup.set hsup, h.long, h.mini⟩
  split at e
  · simp only [Option.bind_eq_some_iff, Option.some.injEq] at e
    obtain ⟨w, -, a, ha, l, hl, rfl⟩ := e
    exact h'.setLong (Fits.longLoop _ _ _ (Fits.new (Nat.le_refl _)) ha) hl
  · simp only [Option.bind_eq_some_iff, Option.some.injEq] at e
    obtain ⟨w, -, a, ha, m, hm, rfl⟩ := e
    exact h'.setMini (Fits.fill _ _ (Fits.new (Nat.le_refl _)) ha) hm

theorem fastLoop_fit {N : Nat} {pat : Pat} {v : IntVec} {logn4 sb : Nat} : ∀ (n w : Nat) (c : Word) (last lsum : Nat) (s s' : BSt) (q : Nat),
    AllFit N s.sup s.long s.mini → fastLoop pat v logn4 sb w n c last lsum s = some (s', q) → AllFit N s'.sup s'.long s'.mini := by
  intro n
  induction n with
  | zero => intro w c last lsum s s' q h e; simp only [fastLoop, Option.some.injEq, Prod.mk.injEq] at e; rw [← e.1]; exact h
  | succ n ih =>
    intro w c last lsum s s' q h e
    simp only [fastLoop, Option.bind_eq_bind, Option.bind_eq_some_iff] at e
    obtain ⟨x, -, e⟩ := e
    split at e
    · simp only [Option.bind_eq_some_iff] at e
      obtain ⟨p, -, pos, -, e⟩ := e
      split at e
      · simp only [Option.bind_eq_some_iff] at e
        obtain ⟨s1, e1, e⟩ := e
        exact ih _ _ _ _ s1 s' q (fastFlush_fit (s := { s with pos := pos, cnt := _ }) h e1) e
      · exact ih _ _ _ _ { s with pos := pos, cnt := _ } s' q h e
    · refine ih _ _ _ _ _ s' q ?_ e
      exact h

theorem mclBuild_fit {pat : Pat} {junk : Nat → Nat} {v : IntVec} {t : Mcl} (e : mclBuild pat junk v = some t) :
    AllFit ((t.argCnt + 4095) / 4096) t.sup t.long t.mini := by
  have h0 : AllFit 0 Arr.empty none [] := ⟨Fits.empty, by simp, by simp⟩
  have h1 : ∀ sb lg, AllFit sb (Arr.new sb 0 lg) none (List.replicate sb Arr.empty) := fun sb lg =>
    ⟨Fits.new (Nat.le_refl _), by simp, fun a ha => by rw [(List.mem_replicate.1 ha).2]; exact Fits.empty⟩
  unfold mclBuild at e
  split at e
  · unfold initSlow at e
    simp only [Option.bind_eq_bind, Option.bind_eq_some_iff, Option.pure_def] at e
    obtain ⟨lg, -, total, -, e⟩ := e
    split at e
    · simp only [Option.some.injEq] at e; subst e; exact h0
    · simp only [Option.bind_eq_some_iff, Option.some.injEq] at e
      obtain ⟨s, es, rfl⟩ := e
      exact slowLoop_fit _ _ _ s (h1 _ _) es
  · unfold initFast at e
    simp only [Option.bind_eq_bind, Option.bind_eq_some_iff, Option.pure_def] at e
    obtain ⟨lg, -, total, -, e⟩ := e
    split at e
    · simp only [Option.some.injEq] at e; subst e; exact h0
    · simp only [Option.bind_eq_some_iff] at e
      obtain ⟨⟨s, q⟩, es, e⟩ := e
      have h := fastLoop_fit _ _ _ _ _ _ s q (h1 _ _) es
      split at e
      · simp only [Option.bind_eq_some_iff, Option.some.injEq] at e
        obtain ⟨p0, -, w, -, a, ha, l, hl, rfl⟩ := e
        exact h.setLong (Fits.longLoop _ _ _ (Fits.new (Nat.le_refl _)) ha) hl
      · simp only [Option.some.injEq] at e
        subst e
        exact h

/-- Every support that can be built can be stored. -/
theorem mcl_store {pat : Pat} {junk : Nat → Nat} {v : IntVec} {t : Mcl} (e : mclBuild pat junk v = some t) (hn : t.argCnt + 4095 < 2 ^ 64)
    (p : Ptr) : ∃ x : SelMcl, x.toMcl = t ∧ okParts x ∧ x.m_v = p := by
  have h := mclBuild_fit e
  obtain ⟨s, s1, s2⟩ := h.sup.store (by omega)
  obtain ⟨m, m1, m2⟩ := Fits.store_list (by decide) h.mini
  have : ∃ l : Option (List IntVec), (∀ k, l = some k → ∀ y ∈ k, okWhole y) ∧ l.map (·.map arrOf) = t.long := by
    cases hl : t.long with
    | none => exact ⟨none, by simp, rfl⟩
    | some k =>
      obtain ⟨k', k1, k2⟩ := Fits.store_list (by decide) (h.long k hl)
      exact ⟨some k', by simpa using k1, by simp [k2]⟩
  obtain ⟨l, l1, l2⟩ := this
  refine ⟨⟨p, t.argCnt, s, l, m⟩, ?_, ⟨s1.1, m1, l1⟩, rfl⟩
  unfold SelMcl.toMcl
  simp only [s2, m2, l2]

end Sdsl.Serial

/-! ### Rank supports -/

namespace Sdsl.Serial
open IntVec Spec Bits Rank

theorem st_len {m m' : Mem} {i : Nat} {w : Word} (e : st m i w = some m') : m'.length = m.length := by
  unfold st at e
  split at e
  · simp only [Option.some.injEq] at e; subst e; simp
  · cases e

theorem start_len {pat : Pat} {junk : Nat → Word} {m : Mem} {n : Nat} {s : St} (e : start pat junk m n = some s) : s.bb.length = n := by
  unfold start at e
  simp only [Option.bind_eq_bind, Option.bind_eq_some_iff, Option.pure_def, Option.some.injEq] at e
  obtain ⟨b1, e1, b2, e2, x, -, rfl⟩ := e
  simp only
  rw [st_len e2, st_len e1]
  simp

theorem flush_len {s s' : St} (e : flush s = some s') : s'.bb.length = s.bb.length := by
  unfold flush at e
  simp only [Option.bind_eq_bind, Option.bind_eq_some_iff, Option.pure_def, Option.some.injEq] at e
  obtain ⟨b1, e1, x, -, b2, e2, rfl⟩ := e
  simp only
  rw [st_len e2, st_len e1]

theorem addWord_len {pat : Pat} {m : Mem} {s s' : St} (e : addWord pat m s = some s') : s'.bb.length = s.bb.length := by
  unfold addWord at e
  simp only [Option.bind_eq_bind, Option.bind_eq_some_iff, Option.pure_def, Option.some.injEq] at e
  obtain ⟨x, -, rfl⟩ := e
  rfl

theorem rep_len {body : St → Option St} (hb : ∀ s s', body s = some s' → s'.bb.length = s.bb.length) : ∀ (k : Nat) (s s' : St),
    Rank.rep body k s = some s' → s'.bb.length = s.bb.length := by
  intro k
  induction k with
  | zero => intro s s' e; simp only [Rank.rep, Option.some.injEq] at e; rw [e]
  | succ k ih =>
    intro s s' e
    simp only [Rank.rep, Option.bind_eq_some_iff] at e
    obtain ⟨s1, e1, e2⟩ := e
    rw [ih _ _ e2, hb _ _ e1]

theorem V_body_len {pat : Pat} {m : Mem} (s s' : St) (e : V.body pat m s = some s') : s'.bb.length = s.bb.length := by
  unfold V.body at e
  simp only [Option.bind_eq_bind, Option.pure_def] at e
  split at e
  · simp only [Option.bind_eq_some_iff] at e
    obtain ⟨s1, e1, e2⟩ := e
    rw [addWord_len e2, flush_len e1]
  · simp only [Option.bind_eq_some_iff] at e
    obtain ⟨s1, e1, s2, e2, e3⟩ := e
    simp only [Option.some.injEq] at e2
    subst e2
    rw [addWord_len e3]

theorem V5_body_len {pat : Pat} {m : Mem} (s s' : St) (e : V5.body pat m s = some s') : s'.bb.length = s.bb.length := by
  unfold V5.body at e
  simp only [Option.bind_eq_bind, Option.pure_def] at e
  split at e
  · simp only [Option.bind_eq_some_iff] at e
    obtain ⟨s1, e1, e2⟩ := e
    rw [addWord_len e2, flush_len e1]
  · split at e
    · simp only [Option.bind_eq_some_iff] at e
      obtain ⟨s1, e1, s2, e2, e3⟩ := e
      simp only [Option.some.injEq] at e2
      subst e2
      rw [addWord_len e3]
    · simp only [Option.bind_eq_some_iff] at e
      obtain ⟨s1, e1, e2⟩ := e
      simp only [Option.some.injEq] at e1
      subst e1
      rw [addWord_len e2]

/-- The number of words of `rank_support_v`, rank_support_v.hpp:75. -/
theorem V_build_len {pat : Pat} {junk : Nat → Word} {v : IntVec} {bb : Mem} (e : V.build pat junk v = some bb) :
    bb.length = (v.capWords * 64 / 512 + 1) * 2 := by
  unfold V.build at e
  split at e
  · rename_i h
    simp only [Option.some.injEq] at e; subst e; simp [capWords, h]
  · simp only [Option.bind_eq_bind, Option.bind_eq_some_iff] at e
    obtain ⟨s, e1, s2, e2, e3⟩ := e
    rw [← start_len e1, ← rep_len V_body_len _ _ _ e2]
    unfold V.finish at e3
    split at e3
    · simp only [Option.bind_eq_bind, Option.bind_eq_some_iff] at e3
      obtain ⟨x, -, e3⟩ := e3
      exact st_len e3
    · simp only [Option.bind_eq_bind, Option.bind_eq_some_iff] at e3
      obtain ⟨b1, e4, x, -, b2, e5, e6⟩ := e3
      rw [st_len e6, st_len e5, st_len e4]

/-- The number of words of `rank_support_v5`, rank_support_v5.hpp:73. -/
theorem V5_build_len {pat : Pat} {junk : Nat → Word} {v : IntVec} {bb : Mem} (e : V5.build pat junk v = some bb) :
    bb.length = (v.capWords * 64 / 2048 + 1) * 2 := by
  unfold V5.build at e
  split at e
  · rename_i h
    simp only [Option.some.injEq] at e; subst e; simp [capWords, h]
  · simp only [Option.bind_eq_bind, Option.bind_eq_some_iff] at e
    obtain ⟨s, e1, s2, e2, e3⟩ := e
    rw [← start_len e1, ← rep_len V5_body_len _ _ _ e2]
    unfold V5.finish at e3
    simp only [Option.bind_eq_bind, Option.pure_def] at e3
    have key : ∀ sl : Word, (if s2.cw = 32 then
        (st s2.bb (s2.j + 2 - 1) sl).bind fun bb =>
          (ld bb (s2.j + 2 - 2)).bind fun w => (st bb (s2.j + 2) (w + s2.sum)).bind fun bb => st bb (s2.j + 2 + 1) 0#64
        else st s2.bb (s2.j + 1) sl) = some bb → bb.length = s2.bb.length := by
      intro sl e
      split at e
      · simp only [Option.bind_eq_some_iff] at e
        obtain ⟨b1, e4, x, -, b2, e5, e6⟩ := e
        rw [st_len e6, st_len e5, st_len e4]
      · exact st_len e
    split at e3
    · rw [Option.bind_eq_some_iff] at e3
      obtain ⟨x, -, e3⟩ := e3
      rw [Option.bind_eq_some_iff] at e3
      obtain ⟨sl, -, e3⟩ := e3
      exact key _ e3
    · rw [Option.bind_eq_some_iff] at e3
      obtain ⟨sl, -, e3⟩ := e3
      exact key _ e3

/-- Words are stored as they are. -/
theorem words_store (bb : Mem) (h : bb.length * 64 < 2 ^ 64) : okVec 64 ⟨bb.length * 64, bb, 64⟩ none ∧ wordsOf ⟨bb.length * 64, bb, 64⟩ = bb := by
  refine ⟨⟨⟨Nat.le_of_ble_eq_true rfl, Nat.le_of_ble_eq_true rfl, by simp only; omega⟩, h, fun _ => rfl⟩, ?_⟩
  unfold wordsOf
  refine List.ext_getElem? (fun i => ?_)
  rw [List.getElem?_map, elems_get?]
  simp only [Nat.mul_div_cancel _ (show 0 < 64 by decide)]
  by_cases hi : i < bb.length
  · rw [if_pos hi, List.getElem?_eq_getElem hi]
    simp only [Option.map_some, Option.some.injEq, elem]
    rw [Nat.mul_comm i 64, field_word hi]
    simp
  · rw [if_neg hi, List.getElem?_eq_none (by omega)]; rfl

end Sdsl.Serial
