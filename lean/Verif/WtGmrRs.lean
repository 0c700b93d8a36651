/-
  `wt_gmr_rs`: the constructor and the queries.
-/
import Verif.WtGmrCell

namespace Sdsl.Csa.Gmr

open _root_.Sdsl.Csa

theorem wrap1 {X p : Nat} (h : X + p + 1 < 2 ^ 64) : add64 (sub64 (X + p) (X + 1)) 1 = p := by
  unfold add64 sub64
  omega

theorem wrap2 {A B x p : Nat} (h : B + x = p) (hp : p < 2 ^ 64) : sub64 (add64 (A + B) x) (A % 2 ^ 64) = p := by
  unfold add64 sub64
  omega

/-! ### The common bit vector -/

/-- The occurrences of every symbol in every block, in unary. -/
structure BlOk (L : List Nat) (M K bs : Nat) (b : List Bool) (g : Nat → Nat) : Prop where
  bpos : 0 < bs
  fit : L.length ≤ K * bs
  lt : ∀ c ∈ L, c < M
  small : M * K + L.length + 1 < 2 ^ 64
  g_eq : ∀ c o, c < M → o < K → g (c * K + o) = (chunk bs L o).count c
  un : Un g (M * K) b

section
variable {L : List Nat} {M K bs : Nat} {b : List Bool} {g : Nat → Nat} (h : BlOk L M K bs b g)
include h

omit h in
theorem BlOk.idx {c o : Nat} (hc : c < M) (ho : o < K) : c * K + o < M * K := by have := mul_lt_of (K := K) hc; omega

theorem BlOk.pre_eq {c o : Nat} (hc : c < M) (ho : o ≤ K) : pre g (c * K + o) = smaller L c + (L.take (o * bs)).count c := (pre_blocks h.fit h.g_eq c).2 o hc ho

theorem BlOk.pre_succ {c o : Nat} (hc : c < M) (ho : o < K) : pre g (c * K + o + 1) = pre g (c * K + o) + (chunk bs L o).count c := by rw [pre, h.g_eq c o hc ho]

theorem BlOk.pre_le {t : Nat} (ht : t ≤ M * K) : pre g t ≤ L.length := by
  have h1 := pre_mono g ht
  have h2 := (pre_blocks h.fit h.g_eq M).1 (Nat.le_refl _)
  rw [smaller_all h.lt] at h2
  omega

theorem BlOk.sel {c o : Nat} (hc : c < M) (ho : o ≤ K) : Bv.select false b (c * K + o + 1) = some (c * K + o + pre g (c * K + o)) :=
  h.un.select0 (by have := mul_lt_of (K := K) hc; omega)

end

/-- The members of `wt_gmr_rs` represent `L`. -/
structure RsOk (t : Rs) (L : List Nat) (g : Nat → Nat) : Prop where
  bl : BlOk L t.bs t.blocks t.bs t.bv g
  size : t.size = L.length
  cell : ∀ c o, c < t.bs → o < t.blocks → Cell t.e (pre g (c * t.blocks + o)) (chunk t.bs L o) c
  bsmall : t.bs < 2 ^ 64

section
variable {t : Rs} {L : List Nat} {g : Nat → Nat} (h : RsOk t L g)
include h

theorem RsOk.div_lt {p : Nat} (hp : p < L.length) : p / t.bs < t.blocks := by
  have := h.bl.fit
  exact Nat.div_lt_of_lt_mul (by rw [Nat.mul_comm]; omega)

theorem RsOk.before {c : Nat} (hc : c < t.bs) : t.before c = some (pre g (c * t.blocks)) := by
  have h1 := h.bl.sel hc (Nat.zero_le _)
  simp only [Nat.add_zero] at h1
  have h2 := h.bl.small
  have h3 := mul_lt_of (K := t.blocks) hc
  have h4 := h.bl.pre_le (t := c * t.blocks) (by omega)
  rw [Rs.before, add64_eq (by omega), h1, sbind, Nat.mod_eq_of_lt (by omega), sub64_eq (by omega) (by omega), Nat.add_sub_cancel_left]; rfl

theorem RsOk.rank {i c : Nat} (hi : i ≤ L.length) : t.rank i c = some ((L.take i).count c) := by
  have hb0 := h.bl.bpos
  have hb1 := h.bsmall
  rw [Rs.rank, sub64_eq hb0 hb1]
  by_cases e : i = 0 ∨ c > t.bs - 1
  · rw [if_pos e]
    congr 1
    symm
    rcases e with e | e
    · rw [e]; rfl
    · rw [List.count_eq_zero]
      intro hm
      have := h.bl.lt c (List.mem_of_mem_take hm)
      omega
  · rw [if_neg e]
    have hc : c < t.bs := by omega
    have ho := h.div_lt (p := i - 1) (by omega)
    obtain ⟨o, hoe⟩ : ∃ o, o = (i - 1) / t.bs := ⟨_, rfl⟩
    obtain ⟨v, hve⟩ : ∃ v, v = (i - 1) % t.bs := ⟨_, rfl⟩
    have hv : v < t.bs := by rw [hve]; exact Nat.mod_lt _ hb0
    have hi' : i = o * t.bs + (v + 1) := by
      have := Nat.div_add_mod (i - 1) t.bs
      rw [← hoe, ← hve, Nat.mul_comm] at this
      omega
    rw [← hoe] at ho
    have h2 := h.bl.small
    have hx := BlOk.idx hc ho
    have h4 := h.bl.pre_le (t := c * t.blocks + o) (by omega)
    have h5 := h.bl.pre_le (t := c * t.blocks + o + 1) (by omega)
    have hs1 := h.bl.sel hc (show o ≤ t.blocks by omega)
    have hs2 := h.bl.sel hc (show o + 1 ≤ t.blocks by omega)
    rw [show c * t.blocks + (o + 1) = c * t.blocks + o + 1 by omega] at hs2
    have hp := h.bl.pre_succ hc ho
    have hq : add64 (add64 (c * t.blocks) o) 1 = c * t.blocks + o + 1 := by rw [add64_eq (a := c * t.blocks) (by omega), add64_eq (by omega)]
    have hb : add64 (sub64 (c * t.blocks + o + pre g (c * t.blocks + o)) (c * t.blocks + o + 1)) 1 = pre g (c * t.blocks + o) := wrap1 (by omega)
    rw [h.before hc, sbind, ← hoe, ← hve]
    dsimp only
    have hq2 : add64 (c * t.blocks + o + 1) 1 = c * t.blocks + o + 1 + 1 := add64_eq (by omega)
    rw [hq, hs1, sbind, hq2, hs2, sbind, hb, sub64_eq (by omega) (by omega), Nat.add_sub_cancel_left, hp, (h.cell c o hc ho).countLe (by omega), sbind]
    have h6 := h.bl.pre_eq hc (show o ≤ t.blocks by omega)
    have h7 := h.bl.pre_eq hc (Nat.zero_le _)
    rw [Nat.add_zero, Nat.zero_mul, List.take_zero, List.count_nil, Nat.add_zero] at h7
    have h8 := take_count_le (chunk t.bs L o) c (v + 1)
    rw [add64_eq (by omega), h7, h6, sub64_eq (by omega) (by omega), hi', count_chunk (by omega)]
    show some _ = some _
    congr 1
    omega

theorem RsOk.look {c o val : Nat} (hc : c < t.bs) (ho : o < t.blocks) :
    t.look val (c * t.blocks + o + 1) (c * t.blocks + o + 1 + pre g (c * t.blocks + o)) = some (hit (chunk t.bs L o) c val (pre g (c * t.blocks + o))) := by
  have h2 := h.bl.small
  have hx := BlOk.idx hc ho
  have h4 := h.bl.pre_le (t := c * t.blocks + o) (by omega)
  have h5 := h.bl.pre_le (t := c * t.blocks + o + 1) (by omega)
  have hmm := pre_mono g (show c * t.blocks + o + 1 ≤ t.bs * t.blocks by omega)
  have hp := h.bl.pre_succ hc ho
  rw [Rs.look, h.bl.un.get (by omega), sbind]
  by_cases e : (chunk t.bs L o).count c = 0
  · have hz := h.bl.un.zero (c * t.blocks + o + 1) (by omega)
    rw [hp, e] at hz
    simp only [Nat.add_zero] at hz
    rw [hz, if_neg (by simp), hit, if_neg]; rfl
    intro he
    have := List.count_pos_iff.2 (List.mem_of_getElem? he)
    omega
  · have hz := h.bl.un.one (c * t.blocks + o) 0 (by omega) (by rw [h.bl.g_eq c o hc ho]; omega)
    simp only [Nat.add_zero] at hz
    have hs2 := h.bl.sel hc (show o + 1 ≤ t.blocks by omega)
    rw [show c * t.blocks + (o + 1) = c * t.blocks + o + 1 by omega] at hs2
    rw [hz, if_pos rfl, add64_eq (by omega), hs2, sbind]
    dsimp only
    have s1 : sub64 (c * t.blocks + o + 1 + pre g (c * t.blocks + o)) (c * t.blocks + o + 1) = pre g (c * t.blocks + o) := by rw [sub64_eq (by omega) (by omega), Nat.add_sub_cancel_left]
    have s2 : sub64 (c * t.blocks + o + 1 + pre g (c * t.blocks + o + 1)) (c * t.blocks + o + 1) = pre g (c * t.blocks + o + 1) := by rw [sub64_eq (by omega) (by omega), Nat.add_sub_cancel_left]
    rw [s1, s2, hp, sub64_eq (by omega) (by omega), Nat.add_sub_cancel_left]
    by_cases c1 : (chunk t.bs L o).count c < 50
    · rw [if_pos c1]
      have := (h.cell c o hc ho).scan val ((chunk t.bs L o).count c + 1) 0 (by omega) (Nat.zero_le _)
      rw [Nat.add_zero] at this
      exact this
    · rw [if_neg c1]
      exact (h.cell c o hc ho).bisect val

theorem RsOk.loop {p : Nat} (hp : p < L.length) : ∀ (d c fuel : Nat), c + d = sym L p → d < fuel →
    t.loop (p % t.bs) fuel (c * t.blocks + p / t.bs + 1) = some (sym L p * t.blocks + p / t.bs + 1, smaller L (sym L p) + (L.take p).count (sym L p)) := by
  have hb0 := h.bl.bpos
  have ho := h.div_lt hp
  obtain ⟨g1, g2, g3⟩ := chunk_get hb0 hp
  have hsl := h.bl.lt _ (sym_mem hp)
  have h2 := h.bl.small
  intro d
  induction d with
  | zero =>
    intro c fuel hc hf
    obtain ⟨f, rfl⟩ : ∃ f, fuel = f + 1 := ⟨fuel - 1, by omega⟩
    rw [Nat.add_zero] at hc
    subst hc
    have hx := BlOk.idx hsl ho
    have h4 := h.bl.pre_le (t := sym L p * t.blocks + p / t.bs) (by omega)
    rw [Rs.loop, h.bl.sel hsl (by omega), sbind, add64_eq (by omega),
      show sym L p * t.blocks + p / t.bs + pre g (sym L p * t.blocks + p / t.bs) + 1 = sym L p * t.blocks + p / t.bs + 1 + pre g (sym L p * t.blocks + p / t.bs) by omega,
      h.look hsl ho, sbind, hit, if_pos (by rw [List.getElem?_eq_getElem g1, ← sym_lt g1, g2])]
    dsimp only
    have h5 := count_chunk (L := L) (bs := t.bs) (o := p / t.bs) (k := p % t.bs) (Nat.le_of_lt (Nat.mod_lt _ hb0)) (sym L p)
    rw [g3] at h5
    rw [h.bl.pre_eq hsl (by omega), h5, Nat.add_assoc (smaller L _)]; rfl
  | succ d ih =>
    intro c fuel hc hf
    obtain ⟨f, rfl⟩ : ∃ f, fuel = f + 1 := ⟨fuel - 1, by omega⟩
    have hcl : c < t.bs := by omega
    have hx := BlOk.idx hcl ho
    have h4 := h.bl.pre_le (t := c * t.blocks + p / t.bs) (by omega)
    rw [Rs.loop, h.bl.sel hcl (by omega), sbind, add64_eq (by omega),
      show c * t.blocks + p / t.bs + pre g (c * t.blocks + p / t.bs) + 1 = c * t.blocks + p / t.bs + 1 + pre g (c * t.blocks + p / t.bs) by omega,
      h.look hcl ho, sbind, hit, if_neg (by
        rw [List.getElem?_eq_getElem g1, ← sym_lt g1, g2]
        intro e
        have := Option.some.inj e
        omega)]
    dsimp only
    have h3 := BlOk.idx (M := t.bs) (c := c + 1) (by omega) ho
    rw [Nat.succ_mul] at h3
    rw [add64_eq (by omega), show c * t.blocks + p / t.bs + 1 + t.blocks = (c + 1) * t.blocks + p / t.bs + 1 by rw [Nat.succ_mul]; omega]
    exact ih (c + 1) f (by omega) (by omega)

theorem RsOk.start {p : Nat} (hp : p < L.length) : t.loop (p % t.bs) t.bs (p / t.bs + 1) = some (sym L p * t.blocks + p / t.bs + 1, smaller L (sym L p) + (L.take p).count (sym L p)) := by
  have := h.loop hp (sym L p) 0 t.bs (by omega) (h.bl.lt _ (sym_mem hp))
  rwa [Nat.zero_mul, Nat.zero_add] at this

theorem RsOk.div {p : Nat} (hp : p < L.length) : (sym L p * t.blocks + p / t.bs + 1 - 1) / t.blocks = sym L p := by
  rw [Nat.add_sub_cancel, Nat.add_comm]
  exact chunk_div (h.div_lt hp)

theorem RsOk.get {p : Nat} (hp : p < L.length) : t.get p = some (sym L p) := by
  rw [Rs.get, h.start hp, sbind]
  dsimp only
  rw [h.div hp]; rfl

theorem RsOk.inverse {p : Nat} (hp : p < L.length) : t.inverseSelect p = some ((L.take p).count (sym L p), sym L p) := by
  have hsl := h.bl.lt _ (sym_mem hp)
  have h7 := h.bl.pre_eq hsl (Nat.zero_le _)
  rw [Nat.add_zero, Nat.zero_mul, List.take_zero, List.count_nil, Nat.add_zero] at h7
  have h2 := h.bl.small
  have h3 := key_lt hp
  unfold key at h3
  rw [Rs.inverseSelect, h.start hp, sbind]
  dsimp only
  rw [h.div hp, h.before hsl, sbind, h7, sub64_eq (by omega) (by omega), Nat.add_sub_cancel_left]; rfl

theorem RsOk.select {p : Nat} (hp : p < L.length) : t.select ((L.take p).count (sym L p) + 1) (sym L p) = some p := by
  have hb0 := h.bl.bpos
  have ho := h.div_lt hp
  obtain ⟨g1, g2, g3⟩ := chunk_get hb0 hp
  have hsl := h.bl.lt _ (sym_mem hp)
  have h7 := h.bl.pre_eq hsl (Nat.zero_le _)
  rw [Nat.add_zero, Nat.zero_mul, List.take_zero, List.count_nil, Nat.add_zero] at h7
  have h6 := h.bl.pre_eq hsl (show p / t.bs ≤ t.blocks by omega)
  have h5 := count_chunk (L := L) (bs := t.bs) (o := p / t.bs) (k := p % t.bs) (Nat.le_of_lt (Nat.mod_lt _ hb0)) (sym L p)
  rw [g3] at h5
  have h2 := h.bl.small
  have hx := BlOk.idx hsl ho
  have h3 := key_lt hp
  unfold key at h3
  have hr : ((chunk t.bs L (p / t.bs)).take (p % t.bs)).count (sym L p) < g (sym L p * t.blocks + p / t.bs) := by
    rw [h.bl.g_eq _ _ hsl ho]
    have a1 := count_take_succ g1 (sym L p)
    rw [if_pos g2] at a1
    have := take_count_le (chunk t.bs L (p / t.bs)) (sym L p) (p % t.bs + 1)
    omega
  have hs := h.bl.un.select1 hx hr
  have he := h.cell _ _ hsl ho _ g1 g2
  rw [h6, Nat.add_assoc, ← h5] at he
  rw [h6, show smaller L (sym L p) + (L.take (p / t.bs * t.bs)).count (sym L p) + ((chunk t.bs L (p / t.bs)).take (p % t.bs)).count (sym L p) + 1 = smaller L (sym L p) + ((L.take p).count (sym L p) + 1) by omega] at hs
  rw [Rs.select, h.before hsl, sbind, h7]
  dsimp only
  have hsub : sub64 (sym L p * t.blocks + p / t.bs + 1 + (smaller L (sym L p) + (L.take (p / t.bs * t.bs)).count (sym L p)) + ((chunk t.bs L (p / t.bs)).take (p % t.bs)).count (sym L p))
      (smaller L (sym L p) + ((L.take p).count (sym L p) + 1)) = sym L p * t.blocks + p / t.bs := by
    have := Nat.zero_le (p / t.bs)
    rw [sub64_eq (by omega) (by omega)]
    omega
  have hsub1 : sub64 (smaller L (sym L p) + ((L.take p).count (sym L p) + 1)) 1 = smaller L (sym L p) + (L.take p).count (sym L p) := by
    rw [sub64_eq (by omega) (by omega)]
    omega
  rw [add64_eq (by omega), hs, sbind, hsub1, he, sbind, hsub, Nat.add_mul, wrap2 g3 (by omega)]; rfl

theorem RsOk.wtOk : WtOk t.wt L (fun _ => True) :=
  ⟨h.size, fun _ hi => h.get hi, fun _ _ hi _ => h.rank hi, fun _ hi => h.select hi, fun _ hi => h.inverse hi⟩

end

end Sdsl.Csa.Gmr
