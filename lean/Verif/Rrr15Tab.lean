/- The tables of `binomial15`: every block is found under its class and number. -/
import Verif.Rrr15
import Verif.RrrBuild

namespace Sdsl.Rrr15

open Sdsl.Spec Sdsl.Bv Sdsl.Rrr

/-- The bit strings of length `n` with `o` ones, in lexicographic order. -/
def strs : Nat → Nat → List (List Bool)
  | 0, 0 => [[]]
  | 0, _ + 1 => []
  | n + 1, 0 => (strs n 0).map (fun l => false :: l)
  | n + 1, o + 1 => (strs n (o + 1)).map (fun l => false :: l) ++ (strs n o).map (fun l => true :: l)

theorem length_strs : ∀ n o, (strs n o).length = binom n o
  | 0, 0 => rfl
  | 0, o + 1 => rfl
  | n + 1, 0 => by rw [strs, List.length_map, length_strs n 0, binom_zero, binom_zero]
  | n + 1, o + 1 => by
    rw [strs, List.length_append, List.length_map, List.length_map, length_strs, length_strs, binom_succ]; omega

theorem mem_strs : ∀ n o (b : List Bool), b ∈ strs n o ↔ b.length = n ∧ wt b = o
  | 0, 0, b => by
    rw [strs, List.mem_singleton]
    constructor
    · rintro rfl; exact ⟨rfl, rfl⟩
    · intro h; exact List.eq_nil_of_length_eq_zero h.1
  | 0, o + 1, b => by
    rw [strs]
    constructor
    · intro h; cases h
    · rintro ⟨h1, h2⟩
      rw [List.eq_nil_of_length_eq_zero h1, wt_nil] at h2; omega
  | n + 1, 0, b => by
    rw [strs, List.mem_map]
    constructor
    · rintro ⟨l, hl, rfl⟩
      have := (mem_strs n 0 l).1 hl
      rw [wt_cons]
      simp [this]
    · rintro ⟨h1, h2⟩
      cases b with
      | nil => simp at h1
      | cons c l =>
        rw [wt_cons] at h2
        cases c
        · exact ⟨l, (mem_strs n 0 l).2 ⟨by simpa using h1, by simpa using h2⟩, rfl⟩
        · simp at h2
  | n + 1, o + 1, b => by
    rw [strs, List.mem_append, List.mem_map, List.mem_map]
    constructor
    · rintro (⟨l, hl, rfl⟩ | ⟨l, hl, rfl⟩)
      · have := (mem_strs n _ l).1 hl
        rw [wt_cons]; simp [this]
      · have := (mem_strs n _ l).1 hl
        rw [wt_cons]; simp [this]; omega
    · rintro ⟨h1, h2⟩
      cases b with
      | nil => simp at h1
      | cons c l =>
        rw [wt_cons] at h2
        cases c
        · exact Or.inl ⟨l, (mem_strs n _ l).2 ⟨by simpa using h1, by simpa using h2⟩, rfl⟩
        · refine Or.inr ⟨l, (mem_strs n _ l).2 ⟨by simpa using h1, ?_⟩, rfl⟩
          have : true.toNat = 1 := rfl
          omega

theorem nodup_strs : ∀ n o, (strs n o).Nodup
  | 0, 0 => by simp [strs]
  | 0, o + 1 => by simp [strs]
  | n + 1, 0 => by
    rw [strs]
    exact (nodup_strs n 0).map _ (fun a b h hab => h (by simpa using hab))
  | n + 1, o + 1 => by
    rw [strs]
    refine List.nodup_append.2 ⟨(nodup_strs n _).map _ (fun a b h hab => h (by simpa using hab)),
      (nodup_strs n _).map _ (fun a b h hab => h (by simpa using hab)), ?_⟩
    intro a ha b hb hab
    obtain ⟨l, _, rfl⟩ := List.mem_map.1 ha
    obtain ⟨l', _, rfl⟩ := List.mem_map.1 hb
    simp at hab

theorem head_strs : ∀ n o, o ≤ n → (strs n o)[0]? = some (List.replicate (n - o) false ++ List.replicate o true)
  | 0, 0, _ => rfl
  | n + 1, 0, _ => by
    rw [strs, List.getElem?_map, head_strs n 0 (by omega)]
    simp [List.replicate_succ]
  | n + 1, o + 1, h => by
    rw [strs]
    by_cases h1 : o + 1 ≤ n
    · have hl : 0 < ((strs n (o + 1)).map (fun l => false :: l)).length := by
        rw [List.length_map, length_strs]; exact binom_pos _ _ h1
      rw [List.getElem?_append_left hl, List.getElem?_map, head_strs n _ h1]
      show some _ = some _
      rw [show n + 1 - (o + 1) = (n - (o + 1)) + 1 by omega, List.replicate_succ]; rfl
    · have : o = n := by omega
      subst this
      have hl : (strs o (o + 1)) = [] := by
        apply List.eq_nil_of_length_eq_zero
        rw [length_strs]; exact binom_gt _ _ (by omega)
      rw [hl, List.map_nil, List.nil_append, List.getElem?_map, head_strs o o (Nat.le_refl _)]
      simp [List.replicate_succ]

theorem count_wt : ∀ l : List Bool, l.count true = wt l ∧ l.count false + wt l = l.length
  | [] => ⟨rfl, rfl⟩
  | c :: l => by
    obtain ⟨h1, h2⟩ := count_wt l
    rw [wt_cons]
    cases c
    · simp [h1]; omega
    · simp [h1]; omega

/-- `next_permutation` walks through the strings in order and stops after the last one. -/
theorem next_strs : ∀ n o i (h : i < (strs n o).length), nextPerm (strs n o)[i] = (strs n o)[i + 1]?
  | 0, 0, i, h => by
    have : i = 0 := by simp [strs] at h; exact h
    subst this; rfl
  | 0, o + 1, i, h => by simp [strs] at h
  | n + 1, 0, i, h => by
    have hl : i < (strs n 0).length := by simpa [strs] using h
    have ih := next_strs n 0 i hl
    have hm := (mem_strs n 0 _).1 (List.getElem_mem hl)
    have e : (strs (n + 1) 0)[i] = false :: (strs n 0)[i] := by simp only [strs, List.getElem_map]
    have e2 : (strs (n + 1) 0)[i + 1]? = ((strs n 0)[i + 1]?).map (fun l => false :: l) := by simp only [strs, List.getElem?_map]
    rw [e, e2, nextPerm, ih]
    cases hx : (strs n 0)[i + 1]? with
    | some l => rfl
    | none =>
      have := (count_wt (strs n 0)[i]).1
      dsimp only [Option.map]
      rw [if_neg]
      rintro ⟨_, h⟩
      exact h (by omega)
  | n + 1, o + 1, i, h => by
    have hlen : (strs (n + 1) (o + 1)).length = (strs n (o + 1)).length + (strs n o).length := by
      simp only [strs, List.length_append, List.length_map]
    by_cases h1 : i < (strs n (o + 1)).length
    · have ih := next_strs n (o + 1) i h1
      have hm := (mem_strs n _ _).1 (List.getElem_mem h1)
      have e : (strs (n + 1) (o + 1))[i] = false :: (strs n (o + 1))[i] := by
        simp only [strs]
        rw [List.getElem_append_left (by simpa using h1), List.getElem_map]
      rw [e, nextPerm, ih]
      by_cases h2 : i + 1 < (strs n (o + 1)).length
      · have e2 : (strs (n + 1) (o + 1))[i + 1]? = some (false :: (strs n (o + 1))[i + 1]) := by
          simp only [strs]
          rw [List.getElem?_append_left (by simpa using h2), List.getElem?_map, List.getElem?_eq_getElem h2]; rfl
        rw [e2, List.getElem?_eq_getElem h2]
      · rw [List.getElem?_eq_none (by omega)]
        have hc := count_wt (strs n (o + 1))[i]
        have hle := wt_le (strs n (o + 1))[i]
        dsimp only
        rw [if_pos ⟨rfl, by omega⟩]
        have e2 : (strs (n + 1) (o + 1))[i + 1]? = ((strs n o)[0]?).map (fun l => true :: l) := by
          simp only [strs]
          rw [List.getElem?_append_right (by simp; omega), List.getElem?_map]
          congr 2
          simp; omega
        rw [e2, head_strs n o (by omega)]
        show some _ = some _
        rw [show (strs n (o + 1))[i].count false + 1 = n - o by omega, show (strs n (o + 1))[i].count true - 1 = o by omega]
    · obtain ⟨k, rfl⟩ : ∃ k, i = (strs n (o + 1)).length + k := ⟨i - (strs n (o + 1)).length, by omega⟩
      have hk : k < (strs n o).length := by omega
      have ih := next_strs n o k hk
      have e : (strs (n + 1) (o + 1))[(strs n (o + 1)).length + k] = true :: (strs n o)[k] := by
        simp only [strs]
        rw [List.getElem_append_right (by simp), List.getElem_map]
        congr 2
        simp
      have e2 : (strs (n + 1) (o + 1))[(strs n (o + 1)).length + k + 1]? = ((strs n o)[k + 1]?).map (fun l => true :: l) := by
        simp only [strs]
        rw [List.getElem?_append_right (by simp; omega), List.getElem?_map]
        congr 2
        simp; omega
      rw [e, e2, nextPerm, ih]
      cases hx : (strs n o)[k + 1]? with
      | some l => rfl
      | none => simp

theorem testBit_compose (n : Nat) (b : List Bool) : ∀ (c x q : Nat), c ≤ n →
    (compose n b c x).testBit q = (x.testBit q || (decide (q < c) && bit b q))
  | 0, x, q, _ => by simp [compose]
  | c + 1, x, q, h => by
    rw [compose, testBit_compose n b c _ q (by omega), Nat.testBit_or, Nat.testBit_shiftLeft,
      show n - (n - (c + 1)) - 1 = c by omega, show n - 1 - (n - (c + 1)) = c by omega, show b.getD c false = bit b c from rfl]
    by_cases h1 : q = c
    · subst h1
      simp
      cases bit b q <;> simp
    · by_cases h2 : q < c
      · have h3 : ¬ q ≥ c := by omega
        simp [h3, h2, show q < c + 1 by omega]
      · have h3 : (bit b c).toNat.testBit (q - c) = false := by
          obtain ⟨d, hd⟩ : ∃ d, q - c = d + 1 := ⟨q - c - 1, by omega⟩
          rw [hd]
          cases bit b c
          · simp
          · show Nat.testBit 1 (d + 1) = false
            rw [Nat.testBit_succ]; simp
        simp [h3, h2, show ¬ q < c + 1 by omega]

/-- The number written for a bit string. -/
def val (b : List Bool) : Nat := compose 15 b 15 0

theorem testBit_val (b : List Bool) (q : Nat) : (val b).testBit q = (decide (q < 15) && bit b q) := by
  unfold val
  rw [testBit_compose 15 b 15 0 q (Nat.le_refl _)]; simp

theorem val_lt (b : List Bool) : val b < 2 ^ 15 := by
  apply Nat.lt_pow_two_of_testBit
  intro q hq
  rw [testBit_val]; simp; omega

theorem val_inj {a b : List Bool} (ha : a.length = 15) (hb : b.length = 15) (h : val a = val b) : a = b := by
  apply list_ext_bit (by omega)
  intro q hq
  have h1 := testBit_val a q
  rw [h, testBit_val b q] at h1
  simp [show q < 15 by omega] at h1
  exact h1.symm

theorem val_fld {B : List Bool} {j len : Nat} (hl : len ≤ 15) (h : ∀ t, len ≤ t → t < 15 → bit B (j * 15 + t) = false) :
    fld B (j * 15) len = val (blk 15 B j) := by
  apply Nat.eq_of_testBit_eq
  intro q
  rw [testBit_fld, testBit_val]
  by_cases h1 : q < 15
  · rw [bit_blk B j h1]
    by_cases h2 : q < len
    · simp [h1, h2]
    · rw [h q (by omega) h1]; simp
  · have : ¬ q < len := by omega
    simp [h1, this]

/-- The tables after the class starting at element `i` of the list `l`. -/
theorem classLoop_eq {l : List (List Bool)} (hl : ∀ b ∈ l, b.length = 15) (hnd : l.Nodup)
    (hnx : ∀ i (h : i < l.length), nextPerm l[i] = l[i + 1]?) : ∀ (d i fuel cnt cc : Nat) (nb bn : Arr) (hi : i < l.length),
      i + d = l.length → d ≤ fuel → nb.xs.length = 2 ^ 15 → bn.xs.length = 2 ^ 15 → nb.width = 16 → bn.width = 16 →
      cnt + d ≤ 2 ^ 15 → cc + d ≤ 2 ^ 15 →
      ∃ nb' bn', classLoop 15 fuel l[i] cnt cc nb bn = some (cnt + d, cc + d, nb', bn') ∧
        nb'.xs.length = 2 ^ 15 ∧ bn'.xs.length = 2 ^ 15 ∧ nb'.width = 16 ∧ bn'.width = 16 ∧
        (∀ k (h : k < l.length), i ≤ k → nb'.xs[cnt + (k - i)]? = some (val l[k])) ∧
        (∀ t, t < cnt → nb'.xs[t]? = nb.xs[t]?) ∧
        (∀ k (h : k < l.length), i ≤ k → bn'.xs[val l[k]]? = some (cc + (k - i))) ∧
        (∀ x, (∀ k (h : k < l.length), i ≤ k → val l[k] ≠ x) → bn'.xs[x]? = bn.xs[x]?)
  | 0, i, _, _, _, _, _, hi, h, _, _, _, _, _, _, _ => by omega
  | d + 1, i, 0, _, _, _, _, _, _, h, _, _, _, _, _, _ => by omega
  | d + 1, i, fuel + 1, cnt, cc, nb, bn, hi, h, hf, hn1, hn2, hw1, hw2, hc1, hc2 => by
    have hv := val_lt l[i]
    have s1 : cnt < nb.xs.length := by omega
    have s2 : val l[i] < bn.xs.length := by omega
    have hp1 : (2 : Nat) ^ 15 < 2 ^ 16 := by decide
    have hvw : val l[i] < 2 ^ nb.width := by rw [hw1]; omega
    have hcw : cc < 2 ^ bn.width := by rw [hw2]; omega
    rw [classLoop, show compose 15 l[i] 15 0 = val l[i] from rfl, Arr.set_of_lt s1, sbind, Arr.set_of_lt s2, sbind, hnx i hi]
    have hne : ∀ k (hk : k < l.length), i + 1 ≤ k → val l[k] ≠ val l[i] := by
      intro k hk hik he
      have e := val_inj (hl _ (List.getElem_mem hk)) (hl _ (List.getElem_mem hi)) he
      have := (List.getElem_inj hnd).1 e
      omega
    by_cases h1 : i + 1 < l.length
    · rw [List.getElem?_eq_getElem h1]
      dsimp only
      obtain ⟨nb', bn', r1, r2, r3, r4, r5, r6, r7, r8, r9⟩ := classLoop_eq hl hnd hnx d (i + 1) fuel (cnt + 1) (cc + 1)
        { nb with xs := nb.xs.set cnt (val l[i] % 2 ^ nb.width) } { bn with xs := bn.xs.set (val l[i]) (cc % 2 ^ bn.width) } h1
        (by omega) (by omega) (by simpa using hn1) (by simpa using hn2) hw1 hw2 (by omega) (by omega)
      refine ⟨nb', bn', by rw [r1, show cnt + 1 + d = cnt + (d + 1) by omega, show cc + 1 + d = cc + (d + 1) by omega], r2, r3, r4, r5, ?_, ?_, ?_, ?_⟩
      · intro k hk hik
        by_cases e : k = i
        · subst e
          rw [r7 _ (by omega), Nat.sub_self, Nat.add_zero]
          dsimp only
          rw [set_get s1 hvw, if_pos rfl]
        · have := r6 k hk (by omega)
          rw [← this]
          congr 1
          omega
      · intro t ht
        rw [r7 t (by omega)]
        dsimp only
        rw [set_get s1 hvw, if_neg (by omega)]
      · intro k hk hik
        by_cases e : k = i
        · subst e
          rw [r9 _ (fun k' hk' hik' => hne k' hk' hik')]
          dsimp only
          rw [set_get s2 hcw, if_pos rfl, Nat.sub_self, Nat.add_zero]
        · rw [r8 k hk (by omega)]
          congr 1
          omega
      · intro x hx
        rw [r9 x (fun k hk hik => hx k hk (by omega))]
        dsimp only
        rw [set_get s2 hcw, if_neg (fun e => hx i hi (Nat.le_refl _) e.symm)]
    · rw [List.getElem?_eq_none (by omega)]
      dsimp only
      have hd : d = 0 := by omega
      subst hd
      refine ⟨_, _, rfl, by simpa using hn1, by simpa using hn2, hw1, hw2, ?_, ?_, ?_, ?_⟩
      · intro k hk hik
        have e : k = i := by omega
        subst e
        dsimp only
        rw [set_get s1 hvw, if_pos (by omega)]
      · intro t ht
        dsimp only
        rw [set_get s1 hvw, if_neg (by omega)]
      · intro k hk hik
        have e : k = i := by omega
        subst e
        dsimp only
        rw [set_get s2 hcw, if_pos rfl, Nat.sub_self, Nat.add_zero]
      · intro x hx
        dsimp only
        rw [set_get s2 hcw, if_neg (fun e => hx i hi (Nat.le_refl _) e.symm)]

/-- Number of strings of length 15 with less than `i` ones. -/
def Cs : Nat → Nat
  | 0 => 0
  | i + 1 => Cs i + binom 15 i

theorem Cs_le : ∀ i : Fin 16, Cs i.val + binom 15 i.val ≤ 2 ^ 15 := by decide +kernel

theorem sp15 (i : Nat) : (if binom 15 i = 1 then 0 else Nat.log2 (binom 15 i) + 1) = Rrr.sp 15 i := rfl

/-- The tables after the classes below `i`. -/
structure TInv (i : Nat) (C space : List Nat) (nb bn : Arr) : Prop where
  nbl : nb.xs.length = 2 ^ 15
  bnl : bn.xs.length = 2 ^ 15
  nbw : nb.width = 16
  bnw : bn.width = 16
  Cl : C.length = i
  C : ∀ j, j < i → C[j]? = some (Cs j)
  sl : space.length = i
  space : ∀ j, j < i → space[j]? = some (Rrr.sp 15 j)
  nb : ∀ o, o < i → ∀ k (h : k < (strs 15 o).length), nb.xs[Cs o + k]? = some (val (strs 15 o)[k])
  bn : ∀ o, o < i → ∀ k (h : k < (strs 15 o).length), bn.xs[val (strs 15 o)[k]]? = some k

theorem Cs_mono {a b : Nat} (h : a < b) : Cs a + binom 15 a ≤ Cs b := by
  induction h with
  | refl => exact Nat.le_refl _
  | step _ ih => rw [Cs]; omega

theorem append_get {l : List Nat} {x j i : Nat} (hl : l.length = i) : (l ++ [x])[j]? = if j = i then some x else l[j]? := by
  by_cases h : j = i
  · rw [if_pos h, List.getElem?_append_right (by omega), h, hl, Nat.sub_self]; rfl
  · rw [if_neg h]
    by_cases h2 : j < i
    · rw [List.getElem?_append_left (by omega)]
    · rw [List.getElem?_eq_none (by simp; omega), List.getElem?_eq_none (by omega)]

theorem implLoop_eq : ∀ (c i : Nat) (C space : List Nat) (nb bn : Arr), i + c = 16 → TInv i C space nb bn →
    ∃ C' space' nb' bn', implLoop 15 c i (Cs i) C space nb bn = some (C', space', nb', bn') ∧ TInv 16 C' space' nb' bn'
  | 0, i, C, space, nb, bn, h, hI => by
    have : i = 16 := by omega
    subst this
    exact ⟨C, space, nb, bn, rfl, hI⟩
  | c + 1, i, C, space, nb, bn, h, hI => by
    have hle := Cs_le ⟨i, by omega⟩
    dsimp only at hle
    have hlen := length_strs 15 i
    have hpos := binom_pos 15 i (by omega)
    have hh := head_strs 15 i (by omega)
    rw [List.getElem?_eq_getElem (by omega)] at hh
    obtain ⟨nb', bn', r1, r2, r3, r4, r5, r6, r7, r8, r9⟩ := classLoop_eq (l := strs 15 i)
      (fun b hb => ((mem_strs 15 i b).1 hb).1) (nodup_strs 15 i) (next_strs 15 i) (binom 15 i) 0 (2 ^ 15) (Cs i) 0 nb bn (by omega)
      (by omega) (by omega) hI.nbl hI.bnl hI.nbw hI.bnw hle (by omega)
    rw [implLoop]
    dsimp only
    rw [← Option.some.inj hh, r1, sbind]
    dsimp only
    rw [Nat.zero_add, sp15]
    apply implLoop_eq c (i + 1) _ _ nb' bn' (by omega)
    refine ⟨r2, r3, r4, r5, by simp [hI.Cl], ?_, by simp [hI.sl], ?_, ?_, ?_⟩
    · intro j hj
      rw [append_get hI.Cl]
      by_cases e : j = i
      · rw [if_pos e, e]
      · rw [if_neg e]; exact hI.C j (by omega)
    · intro j hj
      rw [append_get hI.sl]
      by_cases e : j = i
      · rw [if_pos e, e]
      · rw [if_neg e]; exact hI.space j (by omega)
    · intro o ho k hk
      by_cases e : o = i
      · subst e
        exact r6 k hk (by omega)
      · have h1 := Cs_mono (show o < i by omega)
        have := length_strs 15 o
        rw [r7 _ (by omega)]
        exact hI.nb o (by omega) k hk
    · intro o ho k hk
      by_cases e : o = i
      · subst e
        have := r8 k hk (by omega)
        rwa [Nat.zero_add, Nat.sub_zero] at this
      · rw [r9 _ (fun k' hk' _ he => ?_)]
        · exact hI.bn o (by omega) k hk
        · have m1 := (mem_strs 15 i _).1 (List.getElem_mem hk')
          have m2 := (mem_strs 15 o _).1 (List.getElem_mem hk)
          have e2 := val_inj m1.1 m2.1 he
          rw [e2] at m1
          omega

/-- The number of a block in its class. -/
def en (b : List Bool) : Nat := (strs 15 (wt b)).idxOf b

theorem en_lt {b : List Bool} (h : b.length = 15) : en b < binom 15 (wt b) := by
  unfold en
  rw [← length_strs]
  exact List.idxOf_lt_length_of_mem ((mem_strs 15 _ b).2 ⟨h, rfl⟩)

/-- What the tables answer. -/
structure TabOk (T : Tab) : Prop where
  sp : ∀ k, k ≤ 15 → T.sp k = some (Rrr.sp 15 k)
  pair : ∀ a b, a ≤ 15 → b ≤ 15 → T.spPair (b + 16 * a) = some (Rrr.sp 15 a + Rrr.sp 15 b)
  toBin : ∀ b : List Bool, b.length = 15 → T.toBin (wt b) (en b) = some (val b)
  toNr : ∀ b : List Bool, b.length = 15 → T.toNr (val b) = some (en b)

theorem mapM_get {f : Nat → Option Nat} : ∀ (l : List Nat), (∀ x ∈ l, ∃ y, f x = some y) → ∃ ys, l.mapM f = some ys ∧
    ∀ (i x y : Nat), l[i]? = some x → f x = some y → ys[i]? = some y
  | [], _ => ⟨[], rfl, fun i x y h _ => by simp at h⟩
  | a :: l, h => by
    obtain ⟨y, hy⟩ := h a (by simp)
    obtain ⟨ys, h1, h2⟩ := mapM_get l (fun x hx => h x (by simp [hx]))
    refine ⟨y :: ys, ?_, ?_⟩
    · rw [List.mapM_cons, hy, sbind, h1, sbind]; rfl
    · intro i x z hi hz
      cases i with
      | zero =>
        simp only [List.getElem?_cons_zero, Option.some.injEq] at hi
        subst hi
        rw [hy] at hz
        simpa using hz
      | succ i => simpa using h2 i x z (by simpa using hi) hz

theorem and15 (x : Nat) : x &&& 0x0F = x % 16 := Nat.and_two_pow_sub_one_eq_mod x 4

theorem shr4 (x : Nat) : x >>> 4 = x / 16 := by rw [Nat.shiftRight_eq_div_pow]

theorem impl_ok : ∃ T, impl = some T ∧ TabOk T := by
  obtain ⟨C, space, nb, bn, h1, hI⟩ := implLoop_eq 16 0 [] [] (Arr.new (2 ^ 15) 0 16) (Arr.new (2 ^ 15) 0 16) rfl
    { nbl := by simp only [Arr.new, List.length_replicate], bnl := by simp only [Arr.new, List.length_replicate]
      nbw := rfl, bnw := rfl, Cl := rfl, C := fun j hj => by omega, sl := rfl, space := fun j hj => by omega
      nb := fun o ho => by omega, bn := fun o ho => by omega }
  have hpe : ∀ x, x < 256 → pairEntry space x = some (Rrr.sp 15 (x / 16) + Rrr.sp 15 (x % 16)) := by
    intro x hx
    unfold pairEntry
    rw [and15, shr4, hI.space _ (by omega), sbind, hI.space _ (by omega), sbind]; rfl
  obtain ⟨ys, hy1, hy2⟩ := mapM_get (f := pairEntry space) (List.range 256) (fun x hx => ⟨_, hpe x (List.mem_range.1 hx)⟩)
  unfold impl
  rw [show Cs 0 = 0 from rfl] at h1
  rw [h1, sbind]
  dsimp only
  rw [hy1, sbind]
  refine ⟨_, rfl, ?_, ?_, ?_, ?_⟩
  · intro k hk
    exact hI.space k (by omega)
  · intro a b ha hb
    have hlt : b + 16 * a < 256 := by omega
    have := hy2 (b + 16 * a) _ _ (List.getElem?_range hlt) (hpe _ hlt)
    rw [show (b + 16 * a) / 16 = a by omega, show (b + 16 * a) % 16 = b by omega] at this
    exact this
  · intro b hb
    have hw := wt_le b
    have hmem : b ∈ strs 15 (wt b) := (mem_strs 15 _ b).2 ⟨hb, rfl⟩
    have hlt : en b < (strs 15 (wt b)).length := List.idxOf_lt_length_of_mem hmem
    have he : (strs 15 (wt b))[en b] = b := List.getElem_idxOf hlt
    unfold Tab.toBin
    dsimp only
    rw [hI.C (wt b) (by omega), sbind]
    have := hI.nb (wt b) (by omega) (en b) hlt
    rw [he] at this
    exact this
  · intro b hb
    have hw := wt_le b
    have hmem : b ∈ strs 15 (wt b) := (mem_strs 15 _ b).2 ⟨hb, rfl⟩
    have hlt : en b < (strs 15 (wt b)).length := List.idxOf_lt_length_of_mem hmem
    have he : (strs 15 (wt b))[en b] = b := List.getElem_idxOf hlt
    have := hI.bn (wt b) (by omega) (en b) hlt
    rw [he] at this
    exact this

end Sdsl.Rrr15
