/- The constructor of rrr_vector builds a well-formed structure. -/
import Verif.RrrVec

namespace Sdsl.Rrr

open Sdsl.Spec Sdsl.Bv

variable {n tk : Nat} {B : List Bool}

theorem bitsOf_fld {j len : Nat} (h : ∀ t, len ≤ t → t < n → bit B (j * n + t) = false) :
    bitsOf (fld B (j * n) len) n = blk n B j := by
  apply list_ext_bit (by rw [length_bitsOf, length_blk])
  intro q hq
  rw [length_bitsOf] at hq
  rw [bit_bitsOf, testBit_fld, bit_blk B j hq]
  by_cases h1 : q < len
  · simp [hq, h1]
  · rw [h q (by omega) hq]; simp

theorem getBt_eq (h256 : n ≤ 256) {j len : Nat} (hl : len ≤ n) (hp : j * n + len ≤ B.length)
    (h : ∀ t, len ≤ t → t < n → bit B (j * n + t) = false) : getBt n B (j * n) len = some (wt (blk n B j)) := by
  unfold getBt
  rw [decodeBtnr_eq h256 hp hl, sbind, popBig_eq h256, bitsOf_fld h]
  · rfl
  · exact Nat.lt_of_lt_of_le (fld_lt _ _ _) (Nat.pow_le_pow_right (by omega) hl)

theorem set_get {a : Arr} {i x : Nat} (h : i < a.xs.length) (hx : x < 2 ^ a.width) (t : Nat) :
    (a.xs.set i (x % 2 ^ a.width))[t]? = if t = i then some x else a.xs[t]? := by
  rw [List.getElem?_set, Nat.mod_eq_of_lt hx]
  by_cases e : i = t
  · subst e; simp [h]
  · rw [if_neg e, if_neg (fun h => e h.symm)]

theorem wt_dummy {j : Nat} (h : B.length ≤ j * n) : wt (blk n B j) = 0 := by
  have : blk n B j = List.replicate n false := by
    apply list_ext_bit (by rw [length_blk, List.length_replicate])
    intro q hq
    rw [length_blk] at hq
    rw [bit_blk B j hq, bit_replicate, bit_of_ge (by omega)]
  rw [this, wt_false]

theorem pass1_eq (h256 : n ≤ 256) (hn : 1 ≤ n) : ∀ (c i : Nat) (bt : Arr), i + c = B.length / n → bt.xs.length = B.length / n + 1 →
    n < 2 ^ bt.width → (∀ j, j < i → bt.xs[j]? = some (wt (blk n B j))) →
    (∀ j, i ≤ j → j < B.length / n + 1 → bt.xs[j]? = some 0) →
    ∃ bt', pass1 n B c bt (i * n) i (cnt true B (i * n)) (P n B i) =
        some (bt', cnt true B B.length, P n B (B.length / n + 1)) ∧
      bt'.xs.length = B.length / n + 1 ∧ n < 2 ^ bt'.width ∧
      ∀ j, j < B.length / n + 1 → bt'.xs[j]? = some (wt (blk n B j))
  | 0, i, bt, hi, hlen, hwd, hlo, hhi => by
    have hdm := Nat.div_add_mod B.length n
    have hm := Nat.mod_lt B.length hn
    rw [Nat.mul_comm] at hdm
    have hi' : i = B.length / n := by omega
    have hin : i * n = B.length / n * n := by rw [hi']
    rw [pass1]
    have hP1 : P n B (i + 1) = P n B i + sp n (wt (blk n B i)) := rfl
    by_cases h : i * n < B.length
    · rw [if_pos h]
      have hw := wt_blk_le n B i
      have hset : i < bt.xs.length := by omega
      rw [getBt_eq h256 (by omega) (by omega) (fun t h1 h2 => bit_of_ge (by omega)), sbind, Arr.set_of_lt hset, sbind,
        space_sp h256 hw, sbind]
      have e1 : cnt true B (i * n) + wt (blk n B i) = cnt true B B.length := by
        rw [← cnt_next, cnt_ge (by rw [Nat.succ_mul]; omega)]
      refine ⟨{ bt with xs := bt.xs.set i (wt (blk n B i) % 2 ^ bt.width) }, ?_, ?_, hwd, ?_⟩
      · rw [e1, ← hi', hP1]; rfl
      · simpa using hlen
      · intro j hj
        dsimp only
        rw [set_get hset (by omega)]
        by_cases e : j = i
        · rw [if_pos e, e]
        · rw [if_neg e]; exact hlo j (by omega)
    · rw [if_neg h]
      have hd : wt (blk n B i) = 0 := wt_dummy (by omega)
      refine ⟨bt, ?_, hlen, hwd, ?_⟩
      · rw [← hi', hP1, hd, sp_zero, cnt_ge (by omega)]; rfl
      · intro j hj
        by_cases e : j = i
        · rw [e, hd]; exact hhi i (by omega) (by omega)
        · exact hlo j (by omega)
  | c + 1, i, bt, hi, hlen, hwd, hlo, hhi => by
    have hdm := Nat.div_mul_le_self B.length n
    have hfull : (i + 1) * n ≤ B.length := Nat.le_trans (Nat.mul_le_mul_right n (by omega)) hdm
    rw [Nat.succ_mul] at hfull
    have hw := wt_blk_le n B i
    have hset : i < bt.xs.length := by omega
    rw [pass1, getBt_eq h256 (Nat.le_refl n) hfull (fun t h1 h2 => by omega), sbind, Arr.set_of_lt hset, sbind,
      space_sp h256 hw, sbind, ← cnt_next, ← Nat.succ_mul]
    apply pass1_eq h256 hn c (i + 1) _ (by omega)
    · simpa using hlen
    · exact hwd
    · intro j hj
      dsimp only
      rw [set_get hset (by omega)]
      by_cases e : j = i
      · rw [if_pos e, e]
      · rw [if_neg e]; exact hlo j (by omega)
    · intro j hj hj2
      dsimp only
      rw [set_get hset (by omega), if_neg (by omega)]
      exact hhi j (by omega) hj2

theorem gtHalf_some {bt : Arr} : ∀ (c j : Nat), j + c ≤ bt.xs.length → ∃ g, gtHalf n bt j c = some g
  | 0, j, _ => ⟨0, rfl⟩
  | c + 1, j, h => by
    obtain ⟨g, hg⟩ := gtHalf_some (bt := bt) c (j + 1) (by omega)
    rw [gtHalf, show bt.get j = _ from List.getElem?_eq_getElem (by omega : j < bt.xs.length), sbind, hg, sbind]
    exact ⟨_, rfl⟩

theorem flipTypes_eq {f : Nat → Nat} : ∀ (c j : Nat) (bt : Arr), j + c ≤ bt.xs.length → n < 2 ^ bt.width →
    (∀ t, j ≤ t → t < j + c → bt.xs[t]? = some (f t)) →
    ∃ bt', flipTypes n bt j c = some bt' ∧ bt'.xs.length = bt.xs.length ∧ bt'.width = bt.width ∧
      ∀ t, bt'.xs[t]? = if j ≤ t ∧ t < j + c then some (n - f t) else bt.xs[t]?
  | 0, j, bt, _, _, _ => ⟨bt, rfl, rfl, rfl, fun t => by rw [if_neg (by omega)]⟩
  | c + 1, j, bt, h, hwd, hf => by
    have hset : j < bt.xs.length := by omega
    obtain ⟨bt', h1, h2, h3, h4⟩ := flipTypes_eq (f := f) c (j + 1) { bt with xs := bt.xs.set j ((n - f j) % 2 ^ bt.width) }
      (by simp; omega) hwd (fun t ht1 ht2 => by
        rw [set_get hset (by omega), if_neg (by omega)]
        exact hf t (by omega) (by omega))
    rw [flipTypes, show bt.get j = _ from hf j (by omega) (by omega), sbind, Arr.set_of_lt hset, sbind]
    refine ⟨bt', h1, by rw [h2]; simp, h3, ?_⟩
    intro t
    rw [h4]
    by_cases e : t = j
    · rw [if_neg (by omega), if_pos (by omega), set_get hset (by omega), if_pos e, e]
    · by_cases e2 : j + 1 ≤ t ∧ t < j + 1 + c
      · rw [if_pos e2, if_pos (by omega)]
      · rw [if_neg e2, if_neg (by omega), set_get hset (by omega), if_neg e]

/-- State after `i` blocks (`a` is the number of processed positions of superblock starts: `i` before, `i+1` after the superblock
    handling of block `i`). -/
structure BInv (n tk : Nat) (B : List Bool) (a i : Nat) (s : St) : Prop where
  btLen : s.bt.xs.length = B.length / n + 1
  btW : n < 2 ^ s.bt.width
  bt : ∀ j, j < B.length / n + 1 → s.bt.xs[j]? = some (if bit s.inv (j / tk) then n - wt (blk n B j) else wt (blk n B j))
  invLen : s.inv.length = B.length / (tk * n) + 1
  invZ : ∀ t, a ≤ t * tk → bit s.inv t = false
  btnrpLen : s.btnrp.xs.length = B.length / (tk * n) + 1
  btnrpW : P n B (B.length / n + 1) < 2 ^ s.btnrp.width
  btnrp : ∀ t, t * tk < a → s.btnrp.xs[t]? = some (P n B (t * tk))
  rankLen : s.rank.xs.length = B.length / (tk * n) + 1 + (if B.length % (tk * n) > 0 then 1 else 0)
  rankW : cnt true B B.length < 2 ^ s.rank.width
  rank : ∀ t, t * tk < a → s.rank.xs[t]? = some (cnt true B (t * (tk * n)))
  btnrLen : P n B (B.length / n + 1) ≤ s.btnr.length
  btnr : ∀ j, j < i → fld s.btnr (P n B j) (sp n (wt (blk n B j))) = enc (blk n B j)
  idx : s.i = i
  btnrPos : s.btnrPos = P n B i
  sum : s.sum = cnt true B (i * n)

theorem mul_mod_eq {t i tk : Nat} (htk : 1 ≤ tk) (h0 : i % tk = 0) (h : t * tk < i + 1) : t * tk < i ∨ t = i / tk := by
  have e := Nat.div_add_mod i tk
  rw [h0, Nat.add_zero, Nat.mul_comm] at e
  by_cases h1 : t = i / tk
  · exact Or.inr h1
  · left
    have : t ≤ i / tk := (Nat.le_div_iff_mul_le htk).2 (by omega)
    have h2 : t + 1 ≤ i / tk := by omega
    have := Nat.mul_le_mul_right tk h2
    rw [Nat.succ_mul] at this
    omega

/-- The writes of the samples at a superblock start. -/
theorem samples_step (hn : 1 ≤ n) (htk : 1 ≤ tk) {i : Nat} {s : St} (hI : BInv n tk B i i s) (hi : i ≤ B.length / n) (h0 : i % tk = 0) :
    ∃ btnrp rank, s.btnrp.set (s.i / tk) s.btnrPos = some btnrp ∧ s.rank.set (s.i / tk) s.sum = some rank ∧
      BInv n tk B i i { s with btnrp := btnrp, rank := rank } ∧
      (∀ t, t * tk < i + 1 → btnrp.xs[t]? = some (P n B (t * tk))) ∧
      (∀ t, t * tk < i + 1 → rank.xs[t]? = some (cnt true B (t * (tk * n)))) ∧ i / tk < B.length / (tk * n) + 1 := by
  have e := Nat.div_add_mod i tk
  rw [h0, Nat.add_zero, Nat.mul_comm] at e
  have hq : i / tk ≤ B.length / (tk * n) := by rw [← sp_tk]; exact Nat.div_le_div_right hi
  have hb : i / tk < s.btnrp.xs.length := by rw [hI.btnrpLen]; omega
  have hr : i / tk < s.rank.xs.length := by rw [hI.rankLen]; omega
  have hin : i * n ≤ B.length := (Nat.le_div_iff_mul_le hn).1 hi
  have hPle := P_mono (n := n) B (show i ≤ B.length / n + 1 by omega)
  have hcle := cnt_mono true B hin
  have hwb := hI.btnrpW
  have hwr := hI.rankW
  have gb : ∀ t, t * tk < i + 1 → (s.btnrp.xs.set (i / tk) (P n B i % 2 ^ s.btnrp.width))[t]? = some (P n B (t * tk)) := by
    intro t ht
    rw [set_get hb (by omega)]
    rcases mul_mod_eq htk h0 ht with h1 | h1
    · rw [if_neg (by rintro rfl; omega)]; exact hI.btnrp t h1
    · rw [if_pos h1, h1, e]
  have gr : ∀ t, t * tk < i + 1 → (s.rank.xs.set (i / tk) (cnt true B (i * n) % 2 ^ s.rank.width))[t]? =
      some (cnt true B (t * (tk * n))) := by
    intro t ht
    rw [set_get hr (by omega)]
    rcases mul_mod_eq htk h0 ht with h1 | h1
    · rw [if_neg (by rintro rfl; omega)]; exact hI.rank t h1
    · rw [if_pos h1, h1, ← Nat.mul_assoc, e]
  rw [hI.idx, hI.btnrPos, hI.sum, Arr.set_of_lt hb, Arr.set_of_lt hr]
  refine ⟨_, _, rfl, rfl, ?_, gb, gr, by omega⟩
  exact { hI with
    btnrpLen := by simpa using hI.btnrpLen
    btnrpW := hwb
    btnrp := fun t ht => gb t (by omega)
    rankLen := by simpa using hI.rankLen
    rankW := hwr
    rank := fun t ht => gr t (by omega)
    idx := rfl, btnrPos := rfl, sum := rfl }

theorem superStart_eq (hn : 1 ≤ n) (htk : 1 ≤ tk) {i : Nat} {s : St} (hI : BInv n tk B i i s) (hi : i ≤ B.length / n)
    (hf : i % tk ≠ 0 → s.invert = bit s.inv (i / tk)) :
    ∃ s', superStart n tk s = some s' ∧ BInv n tk B (i + 1) i s' ∧ s'.invert = bit s'.inv (i / tk) ∧ s'.pos = s.pos := by
  unfold superStart
  by_cases h0 : i % tk = 0
  · rw [hI.idx, if_pos h0]
    obtain ⟨bp, rk, hb, hr, hI2, gb, gr, hq⟩ := samples_step hn htk hI hi h0
    rw [hI.idx] at hb hr
    rw [hb, sbind, hr, sbind]
    have e := Nat.div_add_mod i tk
    rw [h0, Nat.add_zero, Nat.mul_comm] at e
    have hfalse : bit s.inv (i / tk) = false := hI.invZ _ (by omega)
    have hplain : ∀ s' : St, s' = { s with btnrp := bp, rank := rk, i := i, invert := false } → BInv n tk B (i + 1) i s' := by
      rintro _ rfl
      exact { hI2 with
        btnrp := gb, rank := gr, idx := rfl, invZ := fun t ht => hI.invZ t (by omega) }
    by_cases h1 : i + tk ≤ s.bt.xs.length
    · rw [if_pos h1]
      obtain ⟨g, hg⟩ := gtHalf_some (n := n) tk i h1
      rw [hg, sbind]
      by_cases h2 : g > tk / 2
      · rw [if_pos h2]
        have hinvlt : i / tk < s.inv.length := by rw [hI.invLen]; exact hq
        have hwle := fun j => wt_blk_le n B j
        obtain ⟨bt', hb1, hb2, hb3, hb4⟩ := flipTypes_eq (n := n) (f := fun t => wt (blk n B t)) tk i s.bt h1 hI.btW (fun t ht1 ht2 => by
          rw [hI.btLen] at h1
          have := hI.bt t (by omega)
          have hq2 : t / tk = i / tk := by
            apply Nat.div_eq_of_lt_le
            · omega
            · rw [Nat.succ_mul]; omega
          rw [hq2, hfalse] at this
          simpa using this)
        rw [Bv.set_of_lt hinvlt, sbind, hb1, sbind]
        refine ⟨_, rfl, ?_, ?_, rfl⟩
        · exact { hI2 with
            btLen := by show bt'.xs.length = _; rw [hb2]; exact hI.btLen
            btW := by show n < 2 ^ bt'.width; rw [hb3]; exact hI.btW
            bt := by
              intro j hj
              show bt'.xs[j]? = _
              rw [hb4, bit_set hinvlt]
              by_cases hr : i ≤ j ∧ j < i + tk
              · have hq2 : j / tk = i / tk := by
                  apply Nat.div_eq_of_lt_le
                  · omega
                  · rw [Nat.succ_mul]; omega
                rw [if_pos hr, if_pos hq2]; simp
              · have hq2 : ¬ j / tk = i / tk := by
                  intro he
                  apply hr
                  have h3 := Nat.div_add_mod j tk
                  have h4 := Nat.mod_lt j htk
                  rw [he, Nat.mul_comm] at h3
                  omega
                rw [if_neg hr, if_neg hq2]
                exact hI.bt j hj
            invLen := by show (s.inv.set _ _).length = _; rw [List.length_set]; exact hI.invLen
            invZ := by
              intro t ht
              show bit (s.inv.set _ _) t = false
              rw [bit_set hinvlt, if_neg (by rintro rfl; omega)]
              exact hI.invZ t (by omega)
            btnrp := gb
            rank := gr
            idx := rfl }
        · show true = bit (s.inv.set _ _) _
          rw [bit_set hinvlt, if_pos rfl]
      · rw [if_neg h2]
        exact ⟨_, rfl, hplain _ rfl, hfalse.symm, rfl⟩
    · rw [if_neg h1]
      exact ⟨_, rfl, hplain _ rfl, hfalse.symm, rfl⟩
  · rw [hI.idx, if_neg h0]
    have hne : ∀ t, t * tk ≠ i := by
      rintro t rfl
      exact h0 (Nat.mul_mod_left _ _)
    refine ⟨s, rfl, ?_, hf h0, rfl⟩
    exact { hI with
      invZ := fun t ht => hI.invZ t (by omega)
      btnrp := fun t ht => hI.btnrp t (by have := hne t; omega)
      rank := fun t ht => hI.rank t (by have := hne t; omega) }

theorem superLast_eq (hn : 1 ≤ n) (htk : 1 ≤ tk) {i : Nat} {s : St} (hI : BInv n tk B i i s) (hi : i ≤ B.length / n)
    (hf : i % tk ≠ 0 → s.invert = bit s.inv (i / tk)) :
    ∃ s', superLast tk s = some s' ∧ BInv n tk B (i + 1) i s' ∧ s'.invert = bit s'.inv (i / tk) ∧ s'.pos = s.pos := by
  unfold superLast
  by_cases h0 : i % tk = 0
  · rw [hI.idx, if_pos h0]
    obtain ⟨bp, rk, hb, hr, hI2, gb, gr, hq⟩ := samples_step hn htk hI hi h0
    rw [hI.idx] at hb hr
    have e := Nat.div_add_mod i tk
    rw [h0, Nat.add_zero, Nat.mul_comm] at e
    have hinvlt : i / tk < s.inv.length := by rw [hI.invLen]; exact hq
    have hfalse : bit s.inv (i / tk) = false := hI.invZ _ (by omega)
    have hsame : ∀ t, bit (s.inv.set (i / tk) false) t = bit s.inv t := by
      intro t
      rw [bit_set hinvlt]
      by_cases h : t = i / tk
      · rw [if_pos h, h, hfalse]
      · rw [if_neg h]
    rw [hb, sbind, hr, sbind, Bv.set_of_lt hinvlt, sbind]
    refine ⟨_, rfl, ?_, ?_, rfl⟩
    · exact { hI2 with
        bt := by
          intro j hj
          show s.bt.xs[j]? = _
          rw [hsame]; exact hI.bt j hj
        invLen := by show (s.inv.set _ _).length = _; rw [List.length_set]; exact hI.invLen
        invZ := by intro t ht; show bit (s.inv.set _ _) t = false; rw [hsame]; exact hI.invZ t (by omega)
        btnrp := gb
        rank := gr
        idx := rfl }
    · show false = bit (s.inv.set _ _) _
      rw [hsame, hfalse]
  · rw [hI.idx, if_neg h0]
    have hne : ∀ t, t * tk ≠ i := by
      rintro t rfl
      exact h0 (Nat.mul_mod_left _ _)
    refine ⟨s, rfl, ?_, hf h0, rfl⟩
    exact { hI with
      invZ := fun t ht => hI.invZ t (by omega)
      btnrp := fun t ht => hI.btnrp t (by have := hne t; omega)
      rank := fun t ht => hI.rank t (by have := hne t; omega) }

theorem encBlock_eq (h256 : n ≤ 256) (hn : 1 ≤ n) (htk : 1 ≤ tk) {i len : Nat} {s : St} (hI : BInv n tk B (i + 1) i s)
    (hi : i ≤ B.length / n) (hinv : s.invert = bit s.inv (i / tk)) (hpos : s.pos = i * n) (hl : len ≤ n)
    (hp : i * n + len ≤ B.length) (hz : ∀ t, len ≤ t → t < n → bit B (i * n + t) = false) :
    ∃ s', encBlock n B len s = some s' ∧ BInv n tk B (i + 1) (i + 1) s' ∧ s'.pos = s.pos ∧
      ((i + 1) % tk ≠ 0 → s'.invert = bit s'.inv ((i + 1) / tk)) := by
  have hw := wt_blk_le n B i
  have hP1 : P n B (i + 1) = P n B i + sp n (wt (blk n B i)) := rfl
  have hPle := P_mono (n := n) B (show i + 1 ≤ B.length / n + 1 by omega)
  have hbl := hI.btnrLen
  have hencl : enc (blk n B i) < 2 ^ sp n (wt (blk n B i)) := by
    apply lt_sp
    have := enc_lt (blk n B i)
    rwa [length_blk] at this
  have hflag : (i + 1) % tk ≠ 0 → (i + 1) / tk = i / tk := by
    intro h
    have e := Nat.div_add_mod (i + 1) tk
    have hm := Nat.mod_lt (i + 1) htk
    symm
    apply Nat.div_eq_of_lt_le
    · rw [Nat.mul_comm]; omega
    · rw [Nat.succ_mul, Nat.mul_comm]; omega
  have hsum : s.sum + (if s.invert = true then n - (if bit s.inv (i / tk) = true then n - wt (blk n B i) else wt (blk n B i)) else
      (if bit s.inv (i / tk) = true then n - wt (blk n B i) else wt (blk n B i))) = cnt true B ((i + 1) * n) := by
    rw [hinv, undo hw, hI.sum, cnt_next]
  unfold encBlock
  rw [hI.idx, show s.bt.get i = _ from hI.bt i (by omega), sbind, space_sp h256 (ite_le hw _), sbind, sp_inv hw]
  by_cases h0 : sp n (wt (blk n B i)) ≠ 0
  · rw [if_pos h0, hpos, decodeBtnr_eq h256 hp hl, sbind,
      binToNr_eq h256 (Nat.lt_of_lt_of_le (fld_lt _ _ _) (Nat.pow_le_pow_right (by omega) hl)), sbind, bitsOf_fld hz, hI.btnrPos]
    obtain ⟨B', h1, h2, h3⟩ := setBt_eq h256 (B := s.btnr) (pos := P n B i) (x := enc (blk n B i)) (len := sp n (wt (blk n B i)))
      (by omega) (sp_le hn) hencl
    rw [h1, sbind]
    refine ⟨_, rfl, ?_, rfl, fun h => by rw [hflag h]; exact hinv⟩
    exact { hI with
      btnrLen := by show _ ≤ B'.length; rw [h2]; exact hbl
      btnr := by
        intro j hj
        show fld B' _ _ = _
        by_cases e : j = i
        · rw [e]
          apply Nat.eq_of_testBit_eq
          intro q
          rw [testBit_fld, h3]
          by_cases hq : q < sp n (wt (blk n B i))
          · rw [if_pos (by omega)]; simp [hq]
          · simp [hq]
            rw [Nat.testBit_lt_two_pow (Nat.lt_of_lt_of_le hencl (Nat.pow_le_pow_right (by omega) (by omega)))]
        · rw [← hI.btnr j (by omega)]
          apply fld_congr
          intro q hq
          have hPj : P n B (j + 1) = P n B j + sp n (wt (blk n B j)) := rfl
          have := P_mono (n := n) B (show j + 1 ≤ i by omega)
          rw [h3, if_neg (by omega)]
      idx := rfl
      btnrPos := hP1.symm
      sum := hsum }
  · rw [if_neg h0, sbind]
    have h0' : sp n (wt (blk n B i)) = 0 := by omega
    refine ⟨_, rfl, ?_, rfl, fun h => by rw [hflag h]; exact hinv⟩
    exact { hI with
      btnr := by
        intro j hj
        by_cases e : j = i
        · rw [e, h0']
          rw [h0'] at hencl
          show 0 = _
          omega
        · exact hI.btnr j (by omega)
      idx := rfl
      btnrPos := by show s.btnrPos + _ = _; rw [hI.btnrPos, hP1]
      sum := hsum }

theorem pass2_eq (h256 : n ≤ 256) (hn : 1 ≤ n) (htk : 1 ≤ tk) : ∀ (c i : Nat) (s : St), i + c = B.length / n →
    BInv n tk B i i s → s.pos = i * n → (i % tk ≠ 0 → s.invert = bit s.inv (i / tk)) →
    ∃ (s' : St) (nb : Nat), pass2 n tk B c s = some s' ∧ BInv n tk B nb nb s' ∧ B.length ≤ nb * n ∧ ∀ j, j * n < B.length → j < nb
  | 0, i, s, hi, hI, hpos, hf => by
    have hdm := Nat.div_add_mod B.length n
    have hm := Nat.mod_lt B.length hn
    rw [Nat.mul_comm] at hdm
    have hi' : i = B.length / n := by omega
    have hin : i * n = B.length / n * n := by rw [hi']
    rw [pass2, hpos]
    by_cases h : i * n < B.length
    · rw [if_pos h]
      obtain ⟨s1, h1, hI1, hf1, hp1⟩ := superLast_eq hn htk hI (by omega) hf
      obtain ⟨s2, h2, hI2, hp2, hf2⟩ := encBlock_eq (len := B.length - i * n) h256 hn htk hI1 (by omega) hf1 (by rw [hp1, hpos])
        (by omega) (by omega) (fun t ht1 ht2 => bit_of_ge (by omega))
      rw [h1, sbind, h2]
      refine ⟨s2, i + 1, rfl, hI2, by rw [Nat.succ_mul]; omega, ?_⟩
      intro j hj
      apply Nat.lt_of_not_le
      intro hle
      have := Nat.mul_le_mul_right n hle
      rw [Nat.succ_mul] at this
      omega
    · rw [if_neg h]
      refine ⟨s, i, rfl, hI, by omega, ?_⟩
      intro j hj
      apply Nat.lt_of_not_le
      intro hle
      have := Nat.mul_le_mul_right n hle
      omega
  | c + 1, i, s, hi, hI, hpos, hf => by
    have hdm := Nat.div_mul_le_self B.length n
    have hfull : (i + 1) * n ≤ B.length := Nat.le_trans (Nat.mul_le_mul_right n (by omega)) hdm
    rw [Nat.succ_mul] at hfull
    obtain ⟨s1, h1, hI1, hf1, hp1⟩ := superStart_eq hn htk hI (by omega) hf
    obtain ⟨s2, h2, hI2, hp2, hf2⟩ := encBlock_eq (len := n) h256 hn htk hI1 (by omega) hf1 (by rw [hp1, hpos])
      (Nat.le_refl n) hfull (fun t ht1 ht2 => by omega)
    rw [pass2, h1, sbind, h2, sbind]
    apply pass2_eq h256 hn htk c (i + 1) _ (by omega)
    · exact { hI2 with }
    · show s2.pos + n = _
      rw [hp2, hp1, hpos, Nat.succ_mul]
    · exact hf2

theorem clamp_log {x : Nat} (h : x < 2 ^ 64) : x < 2 ^ IntVec.clampWidth (Nat.log2 x + 1) := by
  have h1 : Nat.log2 x + 1 ≤ 64 := by
    by_cases h0 : x = 0
    · subst h0; decide
    · have := (Nat.log2_lt h0).2 h; omega
  unfold IntVec.clampWidth
  rw [if_pos ⟨by omega, h1⟩]
  exact Nat.lt_log2_self

theorem P_le (hn : 1 ≤ n) (B : List Bool) (j : Nat) : P n B j ≤ j * n := by
  induction j with
  | zero => simp [P]
  | succ j ih =>
    have := sp_le (n := n) (k := wt (blk n B j)) hn
    rw [P, Nat.succ_mul]; omega

theorem build_good (h256 : n ≤ 256) (hn : 1 ≤ n) (htk : 1 ≤ tk) (hB : B.length + n < 2 ^ 64) :
    ∃ v, build n tk B = some v ∧ Good n tk B v := by
  have hM : 1 ≤ tk * n := Nat.mul_pos htk hn
  have hdiv : (B.length + n) / n = B.length / n + 1 := Nat.add_div_right _ hn
  have hPtot : P n B (B.length / n + 1) < 2 ^ 64 := by
    have h1 := P_le hn B (B.length / n + 1)
    have h2 := Nat.div_mul_le_self B.length n
    rw [Nat.succ_mul] at h1
    omega
  have hct : cnt true B B.length < 2 ^ 64 := by
    have := cnt_le true B B.length
    omega
  obtain ⟨bt, hb1, hb2, hb3, hb4⟩ := pass1_eq (B := B) h256 hn (B.length / n) 0 (Arr.new (B.length / n + 1) 0 (Nat.log2 n + 1))
    (by omega) (by simp [Arr.new]) (clamp_log (Nat.lt_of_le_of_lt h256 (by decide))) (fun j hj => by omega)
    (fun j _ hj => by simp [Arr.new, hj])
  have hnsb : (bt.xs.length + tk - 1) / tk = B.length / (tk * n) + 1 := by
    rw [hb2, show B.length / n + 1 + tk - 1 = B.length / n + tk by omega, Nat.add_div_right _ htk, sp_tk]
  unfold build
  dsimp only
  rw [hdiv]
  rw [show (0 : Nat) * n = 0 from Nat.zero_mul n, cnt_zero] at hb1
  rw [show (P n B 0 : Nat) = 0 from rfl] at hb1
  rw [hb1, sbind]
  dsimp only
  rw [hnsb]
  obtain ⟨s, nb, hs1, hs2, hs3, hs4⟩ := pass2_eq (B := B) h256 hn htk (B.length / n) 0
    { bt := bt, btnr := List.replicate (max (P n B (B.length / n + 1)) 64) false,
      btnrp := Arr.new (B.length / (tk * n) + 1) 0 (Nat.log2 (P n B (B.length / n + 1)) + 1),
      rank := Arr.new (B.length / (tk * n) + 1 + (if B.length % (tk * n) > 0 then 1 else 0)) 0 (Nat.log2 (cnt true B B.length) + 1),
      inv := List.replicate (B.length / (tk * n) + 1) false, pos := 0, i := 0, btnrPos := 0, sum := 0, invert := false }
    (by omega)
    { btLen := hb2, btW := hb3
      bt := fun j hj => by rw [bit_replicate]; exact hb4 j hj
      invLen := by simp
      invZ := fun t _ => bit_replicate _ _
      btnrpLen := by simp [Arr.new]
      btnrpW := clamp_log hPtot
      btnrp := fun t ht => by omega
      rankLen := by simp [Arr.new]
      rankW := clamp_log hct
      rank := fun t ht => by omega
      btnrLen := by simp; omega
      btnr := fun j hj => by omega
      idx := rfl
      btnrPos := rfl
      sum := by rw [Nat.zero_mul, cnt_zero] }
    (by rw [Nat.zero_mul]) (fun h => by rw [Nat.zero_mod] at h; omega)
  rw [hs1, sbind]
  have hrl := hs2.rankLen
  have hlpos : 0 < s.rank.xs.length := by
    rw [hrl]; exact Nat.lt_of_lt_of_le (Nat.succ_pos _) (Nat.le_add_right _ _)
  have hlast : s.rank.xs.length - 1 < s.rank.xs.length := Nat.sub_lt hlpos (by omega)
  rw [Arr.set_of_lt hlast, sbind]
  have hsum : s.sum = cnt true B B.length := by rw [hs2.sum, cnt_ge hs3]
  have hrw := hs2.rankW
  refine ⟨_, rfl, ?_⟩
  have key : B.length ≤ (s.rank.xs.length - 1) * (tk * n) ∧ (∀ t, t < s.rank.xs.length - 1 → t * (tk * n) < B.length) := by
    have e := Nat.div_add_mod B.length (tk * n)
    have hm := Nat.mod_lt B.length hM
    rw [Nat.mul_comm] at e
    generalize tk * n = M at *
    generalize B.length % M = r at *
    generalize B.length / M = d at *
    by_cases h : r > 0
    · rw [if_pos h] at hrl
      rw [hrl]
      refine ⟨?_, ?_⟩
      · rw [Nat.add_sub_cancel, Nat.succ_mul]; omega
      · intro t ht
        have : t ≤ d := by omega
        have := Nat.mul_le_mul_right M this
        omega
    · rw [if_neg h] at hrl
      rw [hrl]
      refine ⟨?_, ?_⟩
      · rw [Nat.add_zero, Nat.add_sub_cancel]; omega
      · intro t ht
        have : t + 1 ≤ d := by omega
        have := Nat.mul_le_mul_right M this
        rw [Nat.succ_mul] at this
        omega
  have htknb : ∀ t, t * (tk * n) < B.length → t * tk < nb := by
    intro t ht
    apply hs4
    rw [Nat.mul_assoc]; exact ht
  exact {
    size := rfl, btLen := hs2.btLen, invLen := hs2.invLen, bt := hs2.bt, btnrpLen := hs2.btnrpLen
    btnrp := fun t ht => hs2.btnrp t (htknb t ht)
    rankLen := by simpa using hs2.rankLen
    rank := by
      intro t ht
      dsimp only at ht ⊢
      rw [List.length_set] at ht
      rw [hsum, set_get hlast hrw]
      by_cases h : t = s.rank.xs.length - 1
      · rw [if_pos h, h, cnt_ge key.1]
      · rw [if_neg h]
        exact hs2.rank t (htknb t (key.2 t (by omega)))
    btnr := by
      intro j hj
      refine ⟨?_, hs2.btnr j (hs4 j hj)⟩
      have h1 : j ≤ B.length / n := (Nat.le_div_iff_mul_le hn).2 (by omega)
      exact Nat.le_trans (P_mono B (by omega)) hs2.btnrLen }

end Sdsl.Rrr
