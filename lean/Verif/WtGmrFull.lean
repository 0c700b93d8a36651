/-
  `wt_gmr`: the chunks, the queries and the constructor.
-/
import Verif.WtGmrNew

namespace Sdsl.Csa.Gmr

open _root_.Sdsl.Csa

/-- The members of `wt_gmr` represent `L`. -/
structure GmOk (t : Gm) (L : List Nat) (g g' : Nat → Nat) : Prop where
  bl : BlOk L t.M t.chunks t.cs t.blocks g
  size : t.size = L.length
  g_eq : ∀ o c, o < t.chunks → c < t.M → g' (o * t.M + c) = (chunk t.cs L o).count c
  un : Un g' (t.chunks * t.M) t.chunksBv
  msmall : t.M < 2 ^ 64
  cssmall : t.cs < 2 ^ 64
  perm : ∀ p, p < L.length → t.perm.get (p / t.cs * t.cs + key (chunk t.cs L (p / t.cs)) (p % t.cs)) = some (p % t.cs)
  inv : ∀ p, p < L.length → t.inv p = some (p / t.cs * t.cs + key (chunk t.cs L (p / t.cs)) (p % t.cs))

theorem sel0_of {b : List Bool} {k p : Nat} (h : Bv.select false b (k + 1) = some (k + p)) (hs : k + p + 1 < 2 ^ 64) : sel0 b (k + 1) = some p := by
  rw [sel0, h, sbind, wrap1 hs]; rfl

section
variable {t : Gm} {L : List Nat} {g g' : Nat → Nat} (h : GmOk t L g g')
include h

theorem GmOk.div_lt {p : Nat} (hp : p < L.length) : p / t.cs < t.chunks := by
  have := h.bl.fit
  exact Nat.div_lt_of_lt_mul (by rw [Nat.mul_comm]; omega)

theorem GmOk.pre' {o c : Nat} (ho : o < t.chunks) (hc : c ≤ t.M) (hl : o * t.cs ≤ L.length) : pre g' (o * t.M + c) = o * t.cs + smaller (chunk t.cs L o) c := by
  rw [(pre_chunks h.bl.lt h.g_eq o).2 c ho hc, List.length_take, Nat.min_eq_left hl]

theorem GmOk.pre_le' {x : Nat} (hx : x ≤ t.chunks * t.M) : pre g' x ≤ L.length := by
  have h1 := pre_mono g' hx
  have h2 := (pre_chunks h.bl.lt h.g_eq t.chunks).1 (Nat.le_refl _)
  rw [List.length_take] at h2
  omega

/-- Position `p` as offset in its chunk and in the permutation. -/
theorem GmOk.at {p : Nat} (hp : p < L.length) :
    ∃ o k c r J, o = p / t.cs ∧ k = p % t.cs ∧ c = sym L p ∧ o < t.chunks ∧ k < t.cs ∧ c < t.M ∧ k < (chunk t.cs L o).length ∧ sym (chunk t.cs L o) k = c ∧ o * t.cs + k = p ∧
      r = ((chunk t.cs L o).take k).count c ∧ r < (chunk t.cs L o).count c ∧ J = pre g' (o * t.M + c) + r ∧ J < L.length ∧ t.inv p = some J ∧ t.perm.get J = some k ∧
      Bv.select true t.chunksBv (J + 1) = some (o * t.M + c + 1 + J) ∧ (L.take p).count c = (L.take (o * t.cs)).count c + r := by
  have hb0 := h.bl.bpos
  obtain ⟨g1, g2, g3⟩ := chunk_get hb0 hp
  have ho := h.div_lt hp
  have hk := Nat.mod_lt p hb0
  have hi := h.inv p hp
  have hpe := h.perm p hp
  have hc := h.bl.lt _ (sym_mem hp)
  obtain ⟨o, eo⟩ : ∃ o, o = p / t.cs := ⟨_, rfl⟩
  obtain ⟨k, ek⟩ : ∃ k, k = p % t.cs := ⟨_, rfl⟩
  obtain ⟨c, ec⟩ : ∃ c, c = sym L p := ⟨_, rfl⟩
  rw [← eo] at g1 g2 g3 ho hi hpe
  rw [← ek] at g1 g2 g3 hk hi hpe
  rw [← ec] at g2 hc
  have hkk : key (chunk t.cs L o) k = smaller (chunk t.cs L o) c + ((chunk t.cs L o).take k).count c := by rw [key, g2]
  have hJ := h.pre' ho (Nat.le_of_lt hc) (by omega)
  have hr : ((chunk t.cs L o).take k).count c < (chunk t.cs L o).count c := by
    have a1 := count_take_succ g1 c
    rw [if_pos g2] at a1
    have := take_count_le (chunk t.cs L o) c (k + 1)
    omega
  rw [hkk, ← Nat.add_assoc, ← hJ] at hi hpe
  have hs := h.un.select1 (BlOk.idx ho hc) (by rw [h.g_eq o c ho hc]; exact hr)
  have hl := key_lt g1
  have hcl := chunk_length t.cs L o
  have hcc := count_chunk (L := L) (bs := t.cs) (o := o) (k := k) (Nat.le_of_lt hk) c
  rw [g3] at hcc
  refine ⟨o, k, c, _, _, eo, ek, ec, ho, hk, hc, g1, g2, g3, rfl, hr, rfl, by omega, hi, hpe, ?_, hcc⟩
  rw [hs]
  congr 1
  omega

theorem GmOk.symb {o c J : Nat} (ho : o < t.chunks) (hc : c < t.M) (hJ : J < L.length) :
    sub64 (sub64 (sub64 (o * t.M + c + 1 + J) J) (o * t.M % 2 ^ 64)) 1 = c := by
  have h1 := BlOk.idx ho hc
  have h2 := h.bl.small
  rw [Nat.mul_comm] at h2
  have e1 : sub64 (o * t.M + c + 1 + J) J = o * t.M + c + 1 := by rw [sub64_eq (by omega) (by omega)]; omega
  have e2 : sub64 (o * t.M + c + 1) (o * t.M) = c + 1 := by rw [sub64_eq (by omega) (by omega)]; omega
  rw [e1, Nat.mod_eq_of_lt (by omega), e2, sub64_eq (by omega) (by omega), Nat.add_sub_cancel]

theorem GmOk.get {p : Nat} (hp : p < L.length) : t.get p = some (sym L p) := by
  obtain ⟨o, k, c, r, J, eo, ek, ec, ho, hk, hc, h1, h2, h3, h4, h5, h6, h7, h8, h9, h10, h11⟩ := h.at hp
  have := h.bl.small
  rw [Gm.get, h8, sbind]
  rw [← eo, add64_eq (by omega), h10, sbind, h.symb ho hc h7, ec]; rfl

theorem GmOk.s0 {c : Nat} (hc : c < t.M) : sel0 t.blocks (add64 (c * t.chunks) 1) = some (smaller L c) := by
  have h1 := h.bl.sel hc (Nat.zero_le _)
  simp only [Nat.add_zero] at h1
  have h2 := h.bl.small
  have h3 := mul_lt_of (K := t.chunks) hc
  have h4 := h.bl.pre_le (t := c * t.chunks) (by omega)
  have h7 := h.bl.pre_eq hc (Nat.zero_le _)
  rw [Nat.add_zero, Nat.zero_mul, List.take_zero, List.count_nil, Nat.add_zero] at h7
  rw [add64_eq (by omega), sel0_of h1 (by omega), h7]

theorem GmOk.s1 {c o : Nat} (hc : c < t.M) (ho : o < t.chunks) : sel0 t.blocks (add64 (add64 (c * t.chunks) o) 1) = some (smaller L c + (L.take (o * t.cs)).count c) := by
  have h1 := h.bl.sel hc (Nat.le_of_lt ho)
  have h2 := h.bl.small
  have h3 := BlOk.idx hc ho
  have h4 := h.bl.pre_le (t := c * t.chunks + o) (by omega)
  have e1 : add64 (c * t.chunks) o = c * t.chunks + o := add64_eq (by omega)
  rw [e1, add64_eq (by omega), sel0_of h1 (by omega), h.bl.pre_eq hc (Nat.le_of_lt ho)]

theorem GmOk.cell {o c : Nat} (ho : o < t.chunks) (hc : c < t.M) : Cell t.perm (pre g' (o * t.M + c)) (chunk t.cs L o) c := by
  intro k hk hs
  obtain ⟨a1, a2, a3⟩ := sym_chunk hk
  have := h.perm (o * t.cs + k) a1
  have e1 : (o * t.cs + k) / t.cs = o := by rw [Nat.add_comm]; exact chunk_div a2
  have e2 : (o * t.cs + k) % t.cs = k := by rw [Nat.add_comm, Nat.add_mul_mod_self_right, Nat.mod_eq_of_lt a2]
  rw [e1, e2, key, hs, ← Nat.add_assoc, ← h.pre' ho (Nat.le_of_lt hc) (by omega)] at this
  exact this

theorem GmOk.rank {i c : Nat} (hi : i ≤ L.length) : t.rank i c = some ((L.take i).count c) := by
  have hb0 := h.bl.bpos
  have hcs := h.cssmall
  by_cases e : i = 0 ∨ ¬ c < t.M
  · have : (L.take i).count c = 0 := by
      rcases e with e | e
      · rw [e]; rfl
      · rw [List.count_eq_zero]
        intro hm
        exact e (h.bl.lt c (List.mem_of_mem_take hm))
    rw [this, Gm.rank, if_pos]
    rcases e with e | e
    · exact .inl e
    · by_cases hi0 : i = 0
      · exact .inl hi0
      · right
        have hM : 0 < t.M := by have := h.bl.lt _ (sym_mem (L := L) (i := 0) (by omega)); omega
        rw [sub64_eq (by omega) h.msmall]; omega
  · have hc : c < t.M := by omega
    rw [Gm.rank, sub64_eq (by omega) h.msmall, if_neg (by omega)]
    have ho := h.div_lt (p := i - 1) (by omega)
    obtain ⟨o, hoe⟩ : ∃ o, o = (i - 1) / t.cs := ⟨_, rfl⟩
    obtain ⟨v, hve⟩ : ∃ v, v = (i - 1) % t.cs := ⟨_, rfl⟩
    have hv : v < t.cs := by rw [hve]; exact Nat.mod_lt _ hb0
    have hi' : i = o * t.cs + (v + 1) := by
      have := Nat.div_add_mod (i - 1) t.cs
      rw [← hoe, ← hve, Nat.mul_comm] at this
      omega
    rw [← hoe] at ho
    have h2 := h.bl.small
    rw [Nat.mul_comm] at h2
    have hx := BlOk.idx ho hc
    have p1 := h.pre_le' (x := o * t.M + c) (by omega)
    have p2 := h.pre_le' (x := o * t.M + c + 1) (by omega)
    have q1 := h.un.select0 (k := o * t.M + c) (by omega)
    have q2 := h.un.select0 (k := o * t.M + c + 1) (by omega)
    have q3 : pre g' (o * t.M + c + 1) = pre g' (o * t.M + c) + (chunk t.cs L o).count c := by rw [pre, h.g_eq o c ho hc]
    have e1 : add64 (add64 (o * t.M) 1) c = o * t.M + c + 1 := by rw [add64_eq (a := o * t.M) (by omega), add64_eq (by omega)]; omega
    have e2 : add64 (add64 (o * t.M) 2) c = o * t.M + c + 1 + 1 := by rw [add64_eq (a := o * t.M) (by omega), add64_eq (by omega)]; omega
    dsimp only
    rw [← hoe, ← hve, h.s0 hc, sbind, h.s1 hc ho, sbind, e1, sel0_of q1 (by omega), sbind, e2, sel0_of q2 (by omega), sbind, q3, (h.cell ho hc).countLe (by omega), sbind]
    have h3 := smaller_add_count_le_length L c
    have h4 := take_count_le L c (o * t.cs)
    have h5 := count_chunk (L := L) (bs := t.cs) (o := o) (k := v + 1) (by omega) c
    have h6 := take_count_le L c (o * t.cs + (v + 1))
    rw [sub64_eq (by omega) (by omega), Nat.add_sub_cancel_left, add64_eq (by omega), hi', h5]; rfl

theorem GmOk.inverse {p : Nat} (hp : p < L.length) : t.inverseSelect p = some ((L.take p).count (sym L p), sym L p) := by
  obtain ⟨o, k, c, r, J, eo, ek, ec, ho, hk, hc, h1, h2, h3, h4, h5, h6, h7, h8, h9, h10, h11⟩ := h.at hp
  have hsm := h.bl.small
  rw [Nat.mul_comm] at hsm
  have hx := BlOk.idx ho hc
  have q1 := h.un.select0 (k := o * t.M + c) (by omega)
  have a3 := smaller_add_count_le_length L c
  have a4 := take_count_le L c (o * t.cs)
  have a6 := take_count_le L c p
  have e1 : add64 (add64 c 1) (o * t.M) = o * t.M + c + 1 := by rw [add64_eq (a := c) (by omega), add64_eq (by omega)]; omega
  have e2 : sub64 (o * t.M + c + 1 + J) (o * t.M + c + pre g' (o * t.M + c)) = r + 1 := by rw [sub64_eq (by omega) (by omega)]; omega
  have e3 : sub64 (smaller L c + (L.take (o * t.cs)).count c) (smaller L c) = (L.take (o * t.cs)).count c := by rw [sub64_eq (by omega) (by omega), Nat.add_sub_cancel_left]
  rw [Gm.inverseSelect, h8, sbind]
  dsimp only
  rw [← eo, add64_eq (a := J) (by omega), h10, sbind, h.symb ho hc h7, h.s0 hc, sbind, h.s1 hc ho, sbind, e1, q1, sbind, e2, sub64_eq (a := r + 1) (by omega) (by omega), e3, add64_eq (by omega), ← ec, h11]; rfl

theorem GmOk.select {p : Nat} (hp : p < L.length) : t.select ((L.take p).count (sym L p) + 1) (sym L p) = some p := by
  obtain ⟨o, k, c, r, J, eo, ek, ec, ho, hk, hc, h1, h2, h3, h4, h5, h6, h7, h8, h9, h10, h11⟩ := h.at hp
  have hsm := h.bl.small
  have hsm' := h.bl.small
  rw [Nat.mul_comm] at hsm'
  have hx := BlOk.idx ho hc
  have hy := BlOk.idx hc ho
  rw [← ec]
  have a3 := smaller_add_count_le_length L c
  have a4 := take_count_le L c (o * t.cs)
  have a5 := count_take_succ hp c
  rw [if_pos ec.symm] at a5
  have a6 := take_count_le L c (p + 1)
  have s0 := h.bl.sel hc (Nat.zero_le _)
  have h7' := h.bl.pre_eq hc (Nat.zero_le _)
  rw [Nat.add_zero, Nat.zero_mul, List.take_zero, List.count_nil, Nat.add_zero] at h7'
  simp only [Nat.add_zero] at s0
  rw [h7'] at s0
  have s1 := h.bl.un.select1 hy (r := r) (by rw [h.bl.g_eq c o hc ho]; exact h5)
  rw [h.bl.pre_eq hc (Nat.le_of_lt ho)] at s1
  have s2 := h.bl.sel hc (Nat.le_of_lt ho)
  rw [h.bl.pre_eq hc (Nat.le_of_lt ho)] at s2
  have s3 := h.un.select0 (k := o * t.M + c) (by omega)
  obtain ⟨P, hP⟩ : ∃ P, P = smaller L c := ⟨_, rfl⟩
  obtain ⟨R, hR⟩ : ∃ R, R = (L.take p).count c := ⟨_, rfl⟩
  obtain ⟨B, hB⟩ : ∃ B, B = (L.take (o * t.cs)).count c := ⟨_, rfl⟩
  obtain ⟨X, hX⟩ : ∃ X, X = c * t.chunks := ⟨_, rfl⟩
  obtain ⟨Y, hY⟩ : ∃ Y, Y = o * t.M := ⟨_, rfl⟩
  rw [← hP, ← hB, ← hX] at s1 s2
  rw [← hY] at s3 h6 hx
  rw [← hP, ← hX] at s0
  rw [← hX] at hy
  rw [← hR] at a5 h11 ⊢
  rw [← hB] at h11 a4
  rw [← hP] at a3
  rw [Gm.select, ← hX, add64_eq (a := X) (by omega), s0, sbind]
  have e1 : sub64 (X + P) (X % 2 ^ 64) = P := by rw [Nat.mod_eq_of_lt (by omega), sub64_eq (by omega) (by omega), Nat.add_sub_cancel_left]
  dsimp only
  rw [e1, add64_eq (a := P) (by omega), show P + (R + 1) = P + B + r + 1 by omega, s1, sbind]
  have e2 : add64 (sub64 (sub64 (sub64 (X + o + 1 + (P + B) + r) P) (X + 1)) (R + 1)) 1 = o := by
    rw [sub64_eq (a := X + o + 1 + (P + B) + r) (by omega) (by omega), sub64_eq (a := X + o + 1 + (P + B) + r - P) (by omega) (by omega)]
    unfold add64 sub64
    omega
  have e3 : add64 X o = X + o := add64_eq (by omega)
  have e3' : add64 (X + o) 1 = X + o + 1 := add64_eq (by omega)
  have e4 : sub64 (sub64 (X + o + (P + B)) (X + o)) P = B := by
    rw [sub64_eq (a := X + o + (P + B)) (by omega) (by omega), sub64_eq (by omega) (by omega)]; omega
  have e5 : add64 (add64 Y c) 1 = Y + c + 1 := by rw [add64_eq (a := Y) (by omega), add64_eq (by omega)]
  have hJ : sub64 (sub64 (sub64 (add64 (Y + c + pre g' (Y + c)) (sub64 (R + 1) B)) (Y % 2 ^ 64)) c) 1 = J := by
    have f1 : sub64 (R + 1) B = r + 1 := by rw [sub64_eq (by omega) (by omega)]; omega
    have f2 : add64 (Y + c + pre g' (Y + c)) (r + 1) = Y + c + J + 1 := by rw [add64_eq (by omega)]; omega
    have f3 : sub64 (Y + c + J + 1) Y = c + J + 1 := by rw [sub64_eq (by omega) (by omega)]; omega
    have f4 : sub64 (c + J + 1) c = J + 1 := by rw [sub64_eq (by omega) (by omega)]; omega
    rw [f1, f2, Nat.mod_eq_of_lt (by omega), f3, f4, sub64_eq (by omega) (by omega), Nat.add_sub_cancel]
  rw [e2, e3, e3', s2, sbind, e4, ← hY, e5, s3, sbind, hJ, h9, sbind, add64_eq (by omega), Nat.add_comm, h3]; rfl

theorem GmOk.wtOk : WtOk t.wt L (fun _ => True) :=
  ⟨h.size, fun _ hi => h.get hi, fun _ _ hi _ => h.rank hi, fun _ hi => h.select hi, fun _ hi => h.inverse hi⟩

end

/-! ### The constructor of wt_gmr -/

theorem chunkLoop_spec {L : List Nat} {M cs K w N : Nat} {g' : Nat → Nat} (hlt : ∀ c ∈ L, c < M) (hcs : cs = 2 ^ w) (hw : w ≤ 62) (hw0 : IntVec.clampWidth w = w) (hn : L.length < 2 ^ 64)
    (hK : ∀ o, o < K → o * cs ≤ L.length) (hg : ∀ o c, o < K → c < M → g' (o * M + c) = (chunk cs L o).count c) (hN : K * M + 1 + pre g' (K * M) ≤ N) :
    ∀ (k i : Nat) (b : List Bool) (perm : Arr), k + i = K → Filled g' (i * M) N b → perm.xs.length = L.length → perm.width = w →
      (∀ o p, o < i → p < (chunk cs L o).length → perm.get (o * cs + key (chunk cs L o) p) = some p) →
      ∃ xp b' perm', chunkLoop L M cs (w + 1) k i (i * M + pre g' (i * M), b, perm) = some (xp, b', perm') ∧ Filled g' (K * M) N b' ∧ perm'.xs.length = L.length ∧
        ∀ o p, o < K → p < (chunk cs L o).length → perm'.get (o * cs + key (chunk cs L o) p) = some p
  | 0, i, b, perm, h1, h2, h3, _, h => by
    obtain rfl : i = K := by omega
    exact ⟨_, b, perm, rfl, h2, h3, h⟩
  | k + 1, i, b, perm, h1, h2, h3, h4, h => by
    have hi : i < K := by omega
    have hcl := chunk_length cs L i
    have hcl2 := chunk_length_le cs L i
    have hKi := hK i hi
    have hmM := mul_lt_of (K := M) hi
    have hmC : ∀ c ∈ chunk cs L i, c < M := fun c hc => hlt c (by
      rw [chunk] at hc
      exact List.mem_of_mem_drop (List.mem_of_mem_take hc))
    have hC : ∀ k, k < (chunk cs L i).length → L[i * cs + k]? = some (sym (chunk cs L i) k) := by
      intro k hk
      obtain ⟨a1, a2, a3⟩ := sym_chunk hk
      rw [a3, List.getElem?_eq_getElem a1, ← sym_lt a1]
    have hcw : IntVec.clampWidth (w + 1) = w + 1 := by rw [IntVec.clampWidth, if_pos (by omega)]
    have hpow : cs < 2 ^ (w + 1) := by rw [hcs]; exact Nat.pow_lt_pow_right (by omega) (by omega)
    obtain ⟨sy, d1, d2, d3, d4⟩ := symLoop_spec hC hmC (chunk cs L i).length 0 (Arr.new M 0 (w + 1)) rfl (by show _ < 2 ^ IntVec.clampWidth (w + 1); rw [hcw]; omega) (by
      intro c hc
      rw [new_zero hc]; rfl)
    have d2' : sy.xs.length = M := by rw [d2]; simp [Arr.new]
    have d3' : sy.width = w + 1 := by rw [d3]; exact hcw
    have hpm := pre_mono g' (show i * M + M ≤ K * M by omega)
    obtain ⟨b', e1, e2⟩ := chunkBits_spec (sy := sy) (g := g') (base := i * M) (n := N) (M := M) (fun c hc => by rw [d4 c hc, hg i c hi hc]) M 0 b (by omega) (by omega) h2
    rw [Nat.add_zero] at e1
    have hps : ∀ k, pre (fun c => (chunk cs L i).count c) k = smaller (chunk cs L i) k := pre_smaller _
    obtain ⟨s2, p1, p2, p3, p4⟩ := prefixLoop_spec (h := fun c => (chunk cs L i).count c) M 0 sy (by omega) (by rw [Nat.zero_add, hps, smaller_all hmC, d3']; omega) (fun t _ h => d4 t (by omega)) (by intro t h; omega)
    obtain ⟨perm', q1, q2, q3, q4, q5⟩ := permLoop_spec hC hmC hcl2 (chunk cs L i).length 0 s2 perm rfl (by omega) (by omega) (by omega) (by rw [p3, d3']; omega) (by rw [h4, hcs]) (by
      intro c hc
      rw [p4 c (by omega), hps]; rfl) (by intro p hp; omega)
    have e0 : i * M + M = (i + 1) * M := by rw [Nat.succ_mul]
    rw [e0] at e1 e2
    have hm : min ((i + 1) * cs) L.length - i * cs = (chunk cs L i).length := by rw [hcl, Nat.succ_mul]; omega
    obtain ⟨xp, b'', perm'', r1, r2, r3, r4⟩ := chunkLoop_spec hlt hcs hw hw0 hn hK hg hN k (i + 1) b' perm' (by omega) e2 (by omega) (by rw [q3, h4]) (by
      intro o p ho hp
      by_cases c : o = i
      · subst c; exact q4 p hp
      · have := mul_lt_of (K := cs) (show o < i by omega)
        have := key_lt hp
        have := chunk_length_le cs L o
        rw [q5 _ (by omega)]
        exact h o p (by omega) hp)
    refine ⟨xp, b'', perm'', ?_, r2, r3, r4⟩
    rw [chunkLoop, chunkStep]
    dsimp only
    rw [hm]
    simp only [Nat.add_zero] at d1 q1
    rw [d1, sbind, e1, sbind, show prefixLoop M 0 0 sy = some s2 from p1, sbind, q1, sbind]
    exact r1

theorem key_surj {C : List Nat} {q : Nat} : ∀ {M : Nat}, q < smaller C M → ∃ p, p < C.length ∧ key C p = q
  | 0, h => by rw [smaller_zero] at h; omega
  | M + 1, h => by
    rw [smaller_succ] at h
    by_cases c : q < smaller C M
    · exact key_surj c
    · obtain ⟨p, p1, p2, p3⟩ := exists_occ (C := C) (c := M) (r := q - smaller C M) (by omega)
      exact ⟨p, p1, by rw [key, p2, p3]; omega⟩

theorem isChunks_of {L : List Nat} {cs K : Nat} {perm : Arr} (hcs : 0 < cs) (hfit : L.length ≤ K * cs) (hl : perm.xs.length = L.length)
    (h : ∀ o p, o < K → p < (chunk cs L o).length → perm.get (o * cs + key (chunk cs L o) p) = some p) : IsChunks cs perm.xs := by
  have hat : ∀ j x, perm.xs[j]? = some x → x < (chunk cs L (j / cs)).length ∧ j = j / cs * cs + key (chunk cs L (j / cs)) x ∧ j < L.length := by
    intro j x hx
    obtain ⟨hj, _⟩ := List.getElem?_eq_some_iff.1 hx
    rw [hl] at hj
    obtain ⟨g1, _, g3⟩ := chunk_get hcs hj
    obtain ⟨p, p1, p2⟩ := key_surj (C := chunk cs L (j / cs)) (q := j % cs) (M := maxLoop (chunk cs L (j / cs)) 0 + 1) (by
      rw [smaller_all (fun c hc => by have := (maxLoop_le (chunk cs L (j / cs)) 0).2 c hc; omega)]; exact g1)
    have := h (j / cs) p (Nat.div_lt_of_lt_mul (by rw [Nat.mul_comm]; omega)) p1
    rw [p2, g3, Arr.get, hx] at this
    obtain rfl := Option.some.inj this
    exact ⟨p1, by rw [p2, g3], hj⟩
  refine ⟨hcs, fun j x hx => ?_, fun i j x e hi hj => ?_⟩
  · obtain ⟨h1, h2, h3⟩ := hat j x hx
    rw [chunk_length] at h1
    rw [hl]
    omega
  · rw [(hat i x hi).2.1, (hat j x hj).2.1, e]

theorem hiW_le {n : Nat} (h : n < 2 ^ 62) : ∃ w, hiW n = some w ∧ n < 2 ^ w ∧ IntVec.clampWidth w = w ∧ w ≤ 62 := by
  obtain ⟨h1, h2, h3⟩ := Select.hiWidth (x := n) (by omega)
  refine ⟨Nat.log2 n + 1, by rw [hiW, h1, sbind]; rfl, h2, h3, ?_⟩
  by_cases e : n = 0
  · subst e; decide
  · exact (Nat.log2_lt e).2 h

theorem gm_new (ts : Nat) {L : List Nat} (hn : L.length < 2 ^ 62) (hs : ∀ c ∈ L, c < 2 ^ 62) :
    ∃ t g g', Gm.new ts L = some t ∧ GmOk t L g g' ∧ t.sigma = L.toFinset.card := by
  obtain ⟨M, hM⟩ : ∃ M, M = maxLoop L 0 + 1 := ⟨_, rfl⟩
  have hm := maxLoop_lt L 0 (by omega) hs
  have hlt : ∀ c ∈ L, c < M := fun c hc => by have := (maxLoop_le L 0).2 c hc; omega
  obtain ⟨w, w1, w2, w3, w4⟩ := hiW_le (n := M - 1) (by omega)
  obtain ⟨cs, hcs⟩ : ∃ cs, cs = 2 ^ w := ⟨_, rfl⟩
  have hcs0 : 0 < cs := by rw [hcs]; exact Nat.two_pow_pos _
  have hcs1 : cs ≤ 2 ^ 62 := by rw [hcs]; exact Nat.pow_le_pow_right (by omega) w4
  obtain ⟨K, hK⟩ : ∃ K, K = (L.length + cs - 1) / cs := ⟨_, rfl⟩
  have hc := ceil_le (n := L.length) (bs := cs) hcs0
  rw [← hK] at hc
  have hMK : M * K ≤ K * cs := by rw [Nat.mul_comm]; exact Nat.mul_le_mul_left _ (by omega)
  have hcw : IntVec.clampWidth (w + 1) = w + 1 := by rw [IntVec.clampWidth, if_pos (by omega)]
  have hpow : cs < 2 ^ (w + 1) := by rw [hcs]; exact Nat.pow_lt_pow_right (by omega) (by omega)
  obtain ⟨tmp, c1, c2, c3⟩ := countLoop_spec (bs := cs) (K := K) (M := M) hcs0 (by omega) L [] 0 0 (Arr.new (M * K) 0 (w + 1)) (by simp) (by omega) hlt hc.1
    (by show cs < 2 ^ IntVec.clampWidth (w + 1); rw [hcw]; exact hpow) (by
      intro c o h1 h2
      rw [chunk_nil, new_zero (BlOk.idx h1 h2)]; rfl)
  rw [List.nil_append] at c3
  have c2' : tmp.xs.length = M * K := by rw [c2]; simp [Arr.new]
  obtain ⟨b, g, u1, u2, u3⟩ := un_of (N := L.length + M * K + 1) hc.1 hlt c2' c3 rfl
  have hbl : BlOk L M K cs b g := ⟨hcs0, hc.1, hlt, by omega, u2, u3⟩
  have hsig := sigma_of hbl (by omega) (by
    intro h
    rw [hK, h, Nat.zero_add]
    exact Nat.div_eq_of_lt (by omega)) (by
    intro h
    rcases Nat.eq_zero_or_pos K with e | e
    · rw [e] at hc; omega
    · exact e)
  have hKo : ∀ o, o < K → o * cs ≤ L.length := by
    intro o ho
    have := mul_lt_of (K := cs) ho
    omega
  obtain ⟨g', hg'⟩ : ∃ g' : Nat → Nat, g' = fun t => (chunk cs L (t / M)).count (t % M) := ⟨_, rfl⟩
  have hge : ∀ o c, o < K → c < M → g' (o * M + c) = (chunk cs L o).count c := by
    intro o c _ hc
    rw [hg']
    show (chunk cs L ((o * M + c) / M)).count ((o * M + c) % M) = _
    rw [Nat.add_comm, chunk_div hc, Nat.add_mul_mod_self_right, Nat.mod_eq_of_lt hc]
  have hp' := (pre_chunks hlt hge K).1 (Nat.le_refl _)
  rw [List.take_of_length_le hc.1] at hp'
  have hcomm := Nat.mul_comm M K
  obtain ⟨xp, cb, perm, r1, r2, r3, r4⟩ := chunkLoop_spec (N := L.length + K * M + 1) hlt hcs w4 w3 (by omega) hKo hge (by omega) K 0 (List.replicate (L.length + K * M + 1) false) (Arr.new L.length 0 w) rfl
    (by rw [Nat.zero_mul]; exact Filled.zero _ _) (by simp [Arr.new]) w3 (by intro o p h; omega)
  rw [Nat.zero_mul] at r1
  have hun : Un g' (K * M) cb := Filled.un (by rw [hp', show K * M + L.length + 1 = L.length + K * M + 1 by omega]; exact r2)
  have hch := isChunks_of hcs0 hc.1 r3 r4
  obtain ⟨ip, i1, i2, i3, i4⟩ := imp_spec (ts := ts) hch (by omega)
  have hpos : ∀ p, p < L.length → p / cs < K := fun p hp => Nat.div_lt_of_lt_mul (by rw [Nat.mul_comm]; omega)
  have hperm : ∀ p, p < L.length → perm.get (p / cs * cs + key (chunk cs L (p / cs)) (p % cs)) = some (p % cs) := fun p hp => r4 _ _ (hpos p hp) (chunk_get hcs0 hp).1
  refine ⟨⟨b, cb, perm, ip, L.length, M, K, cs, L.toFinset.card⟩, g, g', ?_, ⟨hbl, rfl, hge, hun, ?_, ?_, hperm, ?_⟩, rfl⟩
  · unfold Gm.new
    dsimp only
    rw [add64_eq (a := maxLoop L 0) (by omega), ← hM, sub64_eq (a := M) (by omega) (by omega), w1, sbind, if_neg (by omega)]
    rw [← hcs, add64_eq (by omega), sub64_eq (by omega) (by omega), ← hK, Nat.mod_eq_of_lt (by omega), c1, sbind,
      Nat.mod_eq_of_lt (by omega), u1, sbind, hsig, sbind, Nat.mod_eq_of_lt (by omega),
      show chunkLoop L M cs (w + 1) K 0 (0, List.replicate (L.length + K * M + 1) false, Arr.new L.length 0 w) = some (xp, cb, perm) from r1, sbind]
    dsimp only
    rw [i1, sbind]; rfl
  · show M < 2 ^ 64
    omega
  · show cs < 2 ^ 64
    omega
  · intro p hp
    dsimp only
    show ip.get (2 * L.length) p = _
    obtain ⟨j, x, j1, j2, j3⟩ := i4 (2 * L.length) p (by omega) (.inl (by omega))
    rw [j1]
    congr 1
    obtain ⟨x1, x2⟩ := hch.lt j x j2
    have hpj : p / cs = j / cs := by rw [j3]; exact chunk_div x1
    obtain ⟨g1, g2, g3⟩ := chunk_get hcs0 hp
    have hk := key_lt g1
    have hx : p % cs = x := by rw [j3, Nat.add_mul_mod_self_right, Nat.mod_eq_of_lt x1]
    have hh := hperm p hp
    have hl := chunk_length_le cs L (p / cs)
    refine hch.inj _ _ x ?_ j2 (by rw [← hx]; exact hh)
    rw [← hpj, Nat.add_comm (p / cs * cs), chunk_div (by omega)]

end Sdsl.Csa.Gmr
