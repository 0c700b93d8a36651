/-
  Sequences and vectors of Fibonacci codes.
-/
import Verif.FibDec

namespace Sdsl.Fib

open Bits Spec Coder

theorem encSeq_eq (ys : List Word) (hg : ∀ w ∈ ys, LowDigit w) {m : Mem} {pos : Nat}
    (h : pos + (ys.flatMap fibBits).length ≤ 64 * m.length) :
    ∃ m', encSeq code m (pos / 64) (pos % 64) ys =
        some (m', (pos + (ys.flatMap fibBits).length) / 64, (pos + (ys.flatMap fibBits).length) % 64) ∧
      WB m m' pos (ys.flatMap fibBits) := by
  induction ys generalizing m pos with
  | nil => exact ⟨m, rfl, WB.nil _ _⟩
  | cons w l ih =>
    rw [List.flatMap_cons, List.length_append] at h ⊢
    obtain ⟨m1, a1, b1⟩ := encode1_eq (m := m) (pos := pos) (w := w) (hg w (by simp)) (by omega)
    obtain ⟨m2, a2, b2⟩ := ih (fun w hw => hg w (by simp [hw])) (m := m1) (pos := pos + (fibBits w).length)
      (by rw [b1.length]; omega)
    refine ⟨m2, ?_, b1.append b2⟩
    unfold encSeq
    show (encode1 m (pos / 64) (pos % 64) w >>= _) = _
    rw [a1, sbind]; dsimp only
    rw [a2, Nat.add_assoc]

/-- Code words in memory, in the form used by the decoder. -/
theorem codes_at {m : Mem} {q : Nat} {cs : List (Nat × List Bool)} (hc : ∀ c ∈ cs, IsFibCode c.1 c.2)
    (h : At m q (cs.flatMap (·.2))) :
    Codes (fun i => bitAt m (q + i)) (cs.map (·.2.length)) ∧
      vals m q (cs.map (·.2.length)) = cs.map (fun c => BitVec.ofNat 64 c.1) ∧
      (cs.map (·.2.length)).sum = (cs.flatMap (·.2)).length := by
  induction cs generalizing q with
  | nil => exact ⟨trivial, rfl, rfl⟩
  | cons c cs ih =>
    obtain ⟨x, l⟩ := c
    rw [List.flatMap_cons, At.append] at h
    obtain ⟨h1, h2⟩ := h
    obtain ⟨i1, i2, i3⟩ := ih (fun c hc' => hc c (by simp [hc'])) h2
    have hx := hc (x, l) (by simp)
    have h2 := hx.two
    dsimp only at *
    refine ⟨⟨⟨hx.two, ?_, ?_, fun i hi => ?_⟩, ?_⟩, ?_, ?_⟩
    · show bitAt m (q + (l.length - 2)) = true
      rw [h1.2 _ (by omega)]; exact hx.top
    · show bitAt m (q + (l.length - 1)) = true
      rw [h1.2 _ (by omega)]; exact hx.last
    · replace hi : i + 2 < l.length := hi
      show ¬ (bitAt m (q + i) = true ∧ bitAt m (q + (i + 1)) = true)
      rw [h1.2 _ (by omega), h1.2 _ (by omega)]; exact hx.first i hi
    · simpa only [Nat.add_assoc] using i1
    · simp only [List.map_cons, vals]
      rw [i2, fibSum_congr (g := fun i => l.getD i false) (fun i hi => h1.2 i (by omega)), hx.val]
    · simp only [List.map_cons, List.sum_cons, List.flatMap_cons, List.length_append, i3]

theorem codes_words {m : Mem} {q : Nat} {ys : List Word} (h : At m q (ys.flatMap fibBits)) :
    Codes (fun i => bitAt m (q + i)) (ys.map (fun w => (fibBits w).length)) ∧
      vals m q (ys.map (fun w => (fibBits w).length)) = ys ∧
      (ys.map (fun w => (fibBits w).length)).sum = (ys.flatMap fibBits).length := by
  have hf : ys.flatMap fibBits = (ys.map (fun w => (fibNum w, fibBits w))).flatMap (·.2) := by
    rw [List.flatMap_map]
  rw [hf] at h
  have := codes_at (cs := ys.map (fun w => (fibNum w, fibBits w))) (by
    intro c hc
    rw [List.mem_map] at hc
    obtain ⟨w, _, rfl⟩ := hc
    exact isFibCode_bits w) h
  rw [List.map_map, List.map_map, ← hf] at this
  refine ⟨this.1, ?_, this.2.2⟩
  have h2 := this.2.1
  have e : (fun c : Nat × List Bool => BitVec.ofNat 64 c.1) ∘ (fun w => (fibNum w, fibBits w)) = id := by
    funext w
    show BitVec.ofNat 64 (fibNum w) = w
    unfold fibNum
    split
    · rename_i h; rw [h]; rfl
    · simp
  rw [e, List.map_id] at h2
  exact h2

theorem length_le (w : Word) : (fibBits w).length ≤ 93 := by
  obtain ⟨L, -, h2, h3, h4⟩ := encLen_eq w
  rw [length_fibBits h2 h3 h4]; omega

theorem decode_words (sumup : Bool) {m : Mem} {q : Nat} {ys : List Word} (h : At m q (ys.flatMap fibBits)) :
    decode sumup m q ys.length = some (emit sumup 0#64 ys) := by
  obtain ⟨h1, h2, h3⟩ := codes_words h
  have := decode_eq sumup m q _ h1 (by rw [h3]; exact h.1) (by
    intro l hl
    rw [List.mem_map] at hl
    obtain ⟨w, _, rfl⟩ := hl
    exact length_le w)
  rwa [h2, List.length_map] at this

/-! ### Vectors -/

theorem cntWords_eq (m : Mem) (k i : Nat) (h : i + k ≤ m.length) (n : Nat) :
    cntWords m k i n (BitVec.ofNat 64 (pending (bitAt m) false (64 * i)).toNat) =
      some (n + countTrue (fun j => cut (bitAt m) false (64 * i + j)) (64 * k),
        BitVec.ofNat 64 (pending (bitAt m) false (64 * (i + k))).toNat) := by
  induction k generalizing i n with
  | zero => simp [cntWords, countTrue]
  | succ k ih =>
    unfold cntWords
    rw [ld_of_lt (by omega), sbind]
    dsimp only
    have hi : i < m.length := by omega
    rw [cnt11c_eq]
    dsimp only
    have e1 : countTrue (cut (fun j => m[i].getLsbD j) (pending (bitAt m) false (64 * i))) 64 =
        countTrue (fun j => cut (bitAt m) false (64 * i + j)) 64 := by
      apply countTrue_congr
      intro j hj
      rw [cut_add]
      apply cut_congr
      intro j' hj'
      rw [bitAt_mul_add (by omega) hi]
    have e2 : pending (fun j => m[i].getLsbD j) (pending (bitAt m) false (64 * i)) 64 =
        pending (bitAt m) false (64 * (i + 1)) := by
      rw [Nat.mul_add, pending_add]
      apply pending_congr
      intro j hj
      rw [bitAt_mul_add (by omega) hi]
    have hle := countTrue_le (fun j => cut (bitAt m) false (64 * i + j)) 64
    rw [e1, e2, ih (i + 1) (by omega), BitVec.toNat_ofNat, Nat.mod_eq_of_lt (a := countTrue _ 64) (by omega)]
    have e3 : countTrue (fun j => cut (bitAt m) false (64 * i + j)) (64 * (k + 1)) =
        countTrue (fun j => cut (bitAt m) false (64 * i + j)) 64 +
          countTrue (fun j => cut (bitAt m) false (64 * (i + 1) + j)) (64 * k) := by
      rw [show 64 * (k + 1) = 64 + 64 * k by omega, countTrue_add]
      congr 1
      apply countTrue_congr
      intro j _
      congr 1; omega
    rw [e3, show i + 1 + k = i + (k + 1) by omega]
    refine congrArg some (Prod.ext ?_ rfl)
    show n + _ + _ = n + (_ + _)
    omega

theorem cntLast_eq {m : Mem} {size : Nat} (h0 : 0 < size) (h : size ≤ 64 * m.length) :
    ∃ d, ld m ((size + 63) / 64 - 1) = some d ∧
      cntLast d (BitVec.ofNat 64 (pending (bitAt m) false (64 * ((size + 63) / 64 - 1))).toNat) size =
        some (countTrue (fun j => cut (bitAt m) false (64 * ((size + 63) / 64 - 1) + j)) (size - 64 * ((size + 63) / 64 - 1))) := by
  generalize hi : (size + 63) / 64 - 1 = i
  have hil : i < m.length := by omega
  refine ⟨m[i], ld_of_lt hil, ?_⟩
  generalize hc : pending (bitAt m) false (64 * i) = c
  have key : ∀ (x : Word) (r : Nat), r ≤ 64 → (∀ j, j < 64 → x.getLsbD j = (decide (j < r) && m[i].getLsbD j)) →
      (cnt11c x (BitVec.ofNat 64 c.toNat)).1.toNat = countTrue (fun j => cut (bitAt m) false (64 * i + j)) r := by
    intro x r hr hx
    rw [cnt11c_eq]
    dsimp only
    have e : countTrue (cut (fun j => x.getLsbD j) c) 64 = countTrue (fun j => cut (bitAt m) false (64 * i + j)) r := by
      obtain ⟨s, hs⟩ : ∃ s, 64 = r + s := ⟨64 - r, by omega⟩
      rw [congrArg (countTrue _) hs, countTrue_add]
      have e1 : countTrue (cut (fun j => x.getLsbD j) c) r = countTrue (fun j => cut (bitAt m) false (64 * i + j)) r := by
        apply countTrue_congr
        intro j hj
        rw [cut_add, hc]
        apply cut_congr
        intro j' hj'
        rw [bitAt_mul_add (by omega) hil, hx j' (by omega)]
        simp; omega
      have e2 : countTrue (fun j => cut (fun j => x.getLsbD j) c (r + j)) s = 0 := by
        rw [← countTrue_false s]
        apply countTrue_congr
        intro j hj
        unfold cut
        dsimp only
        rw [hx _ (by omega)]
        have : ¬ r + j < r := by omega
        simp [this]
      rw [e1, e2]; rfl
    rw [e, BitVec.toNat_ofNat]
    have := countTrue_le (fun j => cut (bitAt m) false (64 * i + j)) r
    omega
  unfold cntLast
  by_cases c1 : (size + 63) / 64 * 64 ≠ size
  · rw [if_pos c1]
    have : size &&& 0x3F = size % 64 := Nat.and_two_pow_sub_one_eq_mod size 6
    rw [this, loSet_eq (by omega), sbind]
    refine congrArg some (key _ _ (by omega) fun j hj => ?_)
    rw [BitVec.getLsbD_and]
    have : (size - 64 * i) = size % 64 := by omega
    rw [this]
    generalize size % 64 = r
    simp only [BitVec.getLsbD_ofNat, hj, decide_true, Bool.true_and, Nat.testBit_two_pow_sub_one]
    rw [Bool.and_comm]
  · rw [if_neg c1]
    refine congrArg some (key _ _ (by omega) fun j hj => ?_)
    have : j < size - 64 * i := by omega
    simp [this]

theorem encodeVec_eq (junk : Nat → Word) {v z : IntVec} (hv : v.WF) (hz : z.WF)
    (hg : ∀ w ∈ encVals (zeroVal v.width) v, LowDigit w) :
    ∃ z', encodeVec junk v z = some z' ∧ z'.WF ∧ z'.width = v.width ∧
      z'.size = ((encVals (zeroVal v.width) v).flatMap fibBits).length ∧
      At z'.data 0 ((encVals (zeroVal v.width) v).flatMap fibBits) := by
  unfold encodeVec
  have e1 := encSize_eq (c := code) encLen_bits hv (zeroVal v.width) v.numElems 0 (by simp [IntVec.numElems])
  rw [List.drop_zero] at e1
  rw [e1, sbind]
  obtain ⟨d, h1, h2, -⟩ := IntVec.bitResize_eq junk z hz.fit ((encVals (zeroVal v.width) v).flatMap fibBits).length
  rw [h1, sbind]
  generalize hL : ((encVals (zeroVal v.width) v).flatMap fibBits).length = L at *
  have key : ∀ d' : Mem, d'.length = d.length → ∃ z' : IntVec, (encLoop code v (zeroVal v.width) v.numElems 0 d' 0 0 >>= fun d =>
      pure ({ size := L, data := d, width := v.width } : IntVec)) = some z' ∧ z'.WF ∧ z'.width = v.width ∧ z'.size = L ∧
      At z'.data 0 ((encVals (zeroVal v.width) v).flatMap fibBits) := by
    intro d' hd'
    rw [encLoop_eq hv (zeroVal v.width) v.numElems 0 (by simp [IntVec.numElems]), List.drop_zero]
    obtain ⟨m', a, b⟩ := encSeq_eq (encVals (zeroVal v.width) v) hg (m := d') (pos := 0) (by omega)
    rw [show (0 : Nat) / 64 = 0 from rfl, show (0 : Nat) % 64 = 0 from rfl] at a
    rw [a]
    refine ⟨⟨L, m', v.width⟩, rfl, ⟨hv.w1, hv.w64, ?_⟩, rfl, rfl, b.at (by omega)⟩
    show (L + 63) / 64 ≤ m'.length
    rw [b.length]; omega
  dsimp only
  by_cases hc : L % 64 ≠ 0
  · rw [if_pos hc, st_of_lt (by omega), sbind]
    exact key _ (by simp)
  · rw [if_neg hc]
    exact key _ rfl

theorem decodeVec_eq (junk : Nat → Word) (ys : List Word) {z v : IntVec} (hz : z.WF) (hv : v.WF)
    (h : At z.data 0 (ys.flatMap fibBits)) (hsz : z.size = (ys.flatMap fibBits).length) :
    ∃ v', decodeVec junk z v = some v' ∧ v'.WF ∧ v'.width = z.width ∧ v'.elems = ys.map (fun x => x.toNat % 2 ^ z.width) := by
  obtain ⟨c1, c2, c3⟩ := codes_words h
  obtain ⟨n1, -, -⟩ := c1.count
  rw [c3, List.length_map, ← hsz] at n1
  simp only [Nat.zero_add] at n1
  have store : ∃ v', (do
      let v ← IntVec.resize junk { v with width := z.width } ys.length
      let r ← decode false z.data 0 ys.length
      storeAll v 0 r.2) = some v' ∧ v'.WF ∧ v'.width = z.width ∧ v'.elems = ys.map (fun x => x.toNat % 2 ^ z.width) := by
    unfold IntVec.resize
    dsimp only
    obtain ⟨d, a1, a2, -⟩ := IntVec.bitResize_eq junk { v with width := z.width } hv.fit (ys.length * z.width)
    rw [a1, sbind, decode_words false h, emit_false _ _ rfl, sbind]
    obtain ⟨v', b1, b2, b3, b4, b5⟩ := storeAll_eq ys (v := ⟨ys.length * z.width, d, z.width⟩) ⟨hz.w1, hz.w64, a2⟩ (i := 0)
      (by show 0 + ys.length = ys.length * z.width / z.width; rw [Nat.mul_div_cancel _ hz.w1]; omega)
    exact ⟨v', b1, b2, b3, by simpa using b5⟩
  unfold decodeVec
  by_cases c0 : z.size = 0
  · rw [if_pos c0]
    have hnil : ys = [] := by
      cases ys with
      | nil => rfl
      | cons w l =>
        have := (isFibCode_bits w).two
        rw [c0, List.flatMap_cons, List.length_append] at hsz; omega
    subst hnil
    obtain ⟨v', a, b⟩ := store
    unfold IntVec.resize at a ⊢
    dsimp only at a ⊢
    obtain ⟨d, a1, a2, -⟩ := IntVec.bitResize_eq junk { v with width := z.width } hv.fit (0 * z.width)
    rw [List.length_nil, a1, sbind] at a
    rw [a1]
    refine ⟨v', ?_, b⟩
    rw [← a]
    simp [decode, decLoop, storeAll]
  · rw [if_neg c0]
    have hfit := hz.fit
    have hfit' : (z.size + 63) / 64 ≤ z.data.length := hfit
    have w1 := cntWords_eq z.data ((z.size + 63) / 64 - 1) 0 (by omega) 0
    rw [Nat.zero_add, Nat.zero_add, Nat.mul_zero] at w1
    simp only [Nat.zero_add] at w1
    obtain ⟨d, w2, w3⟩ := cntLast_eq (m := z.data) (size := z.size) (by omega) (by omega)
    have hn : countTrue (fun j => cut (bitAt z.data) false j) (64 * ((z.size + 63) / 64 - 1)) +
        countTrue (fun j => cut (bitAt z.data) false (64 * ((z.size + 63) / 64 - 1) + j))
          (z.size - 64 * ((z.size + 63) / 64 - 1)) = ys.length := by
      rw [← countTrue_add, ← n1]
      congr 1
      omega
    rw [show (0#64 : Word) = BitVec.ofNat 64 (pending (bitAt z.data) false 0).toNat from rfl, w1, sbind, w2, sbind]
    dsimp only
    rw [w3, sbind, hn]
    exact store

theorem vec_roundtrip (j1 j2 : Nat → Word) {v z u : IntVec} (hv : v.WF) (hz : z.WF) (hu : u.WF)
    (hg : ∀ w ∈ encVals (zeroVal v.width) v, LowDigit w) :
    ∃ z' v', encodeVec j1 v z = some z' ∧ decodeVec j2 z' u = some v' ∧ v'.WF ∧ v'.width = v.width ∧
      v'.elems = v.elems := by
  obtain ⟨z', a1, a2, a3, a4, a5⟩ := encodeVec_eq j1 hv hz hg
  obtain ⟨v', b1, b2, b3, b4⟩ := decodeVec_eq j2 _ a2 hu a5 a4
  refine ⟨z', v', a1, b1, b2, b3.trans a3, ?_⟩
  rw [b4, a3]
  unfold encVals
  rw [List.map_map]
  conv => rhs; rw [← List.map_id v.elems]
  apply List.map_congr_left
  intro e he
  exact mem_map_enc hv.w64 (elems_lt_pow he)

/-! ### Uniqueness -/

theorem fibSum_lt {f : Nat → Bool} {n : Nat} (h : ∀ i, i + 1 < n → ¬ (f i = true ∧ f (i + 1) = true)) : fibSum f n < fibN n := by
  induction n using Nat.strongRecOn with
  | ind n ih =>
    match n with
    | 0 => simp [fibSum, fibN, fibPair]
    | 1 => simp only [fibSum]; split <;> decide
    | n + 2 =>
      have e : fibSum f (n + 2) = fibSum f (n + 1) + if f (n + 1) then fibN (n + 1) else 0 := rfl
      have e2 : fibSum f (n + 1) = fibSum f n + if f n then fibN n else 0 := rfl
      have i1 := ih (n + 1) (by omega) (fun i hi => h i (by omega))
      have i2 := ih n (by omega) (fun i hi => h i (by omega))
      have hs := fibN_succ n
      have := (fibN_pos n).1
      by_cases c : f (n + 1) = true
      · have c2 : ¬ f n = true := fun c2 => h n (by omega) ⟨c2, c⟩
        rw [if_neg c2] at e2
        rw [if_pos c] at e
        omega
      · rw [if_neg c] at e
        omega

theorem fibSum_inj {f g : Nat → Bool} {n : Nat} (hf : ∀ i, i + 1 < n → ¬ (f i = true ∧ f (i + 1) = true))
    (hg : ∀ i, i + 1 < n → ¬ (g i = true ∧ g (i + 1) = true)) (h : fibSum f n = fibSum g n) : ∀ i, i < n → f i = g i := by
  induction n with
  | zero => intro i hi; omega
  | succ n ih =>
    have a := fibSum_lt (f := f) (n := n) (fun i hi => hf i (by omega))
    have b := fibSum_lt (f := g) (n := n) (fun i hi => hg i (by omega))
    have ef : fibSum f (n + 1) = fibSum f n + if f n then fibN n else 0 := rfl
    have eg : fibSum g (n + 1) = fibSum g n + if g n then fibN n else 0 := rfl
    have hn : f n = g n := by
      cases c : f n <;> cases d : g n <;> simp [c, d] at ef eg ⊢ <;> omega
    intro i hi
    by_cases c : i = n
    · rw [c, hn]
    · refine ih (fun i hi => hf i (by omega)) (fun i hi => hg i (by omega)) ?_ i (by omega)
      rw [hn] at ef; omega

theorem fibCode_isLen {x : Nat} {l : List Bool} (h : IsFibCode x l) : IsLen x (l.length - 1) := by
  have h2 := h.two
  refine ⟨?_, fun j hj => ?_⟩
  · rw [← h.val]
    exact fibSum_lt (fun i hi => h.first i (by omega))
  · rw [← h.val]
    obtain ⟨k, hk⟩ : ∃ k, l.length - 1 = k + 1 := ⟨l.length - 2, by omega⟩
    rw [hk]
    unfold fibSum
    have := h.top
    rw [show l.length - 2 = k by omega] at this
    rw [if_pos this]
    have := fibN_mono (show j ≤ k by omega)
    omega

theorem fibCode_unique {x : Nat} {l l' : List Bool} (h : IsFibCode x l) (h' : IsFibCode x l') : l = l' := by
  have h2 := h.two
  have h2' := h'.two
  have hl : l.length = l'.length := by
    have := (fibCode_isLen h).unique (fibCode_isLen h'); omega
  apply List.ext_getElem hl
  intro i h3 h4
  have hd : l.getD i false = l'.getD i false := by
    by_cases c : i < l.length - 1
    · refine fibSum_inj (n := l.length - 1) (fun i hi => h.first i (by omega)) (fun i hi => h'.first i (by omega)) ?_ i c
      rw [h.val, hl, h'.val]
    · have e := h.last
      have e' := h'.last
      rw [show i = l.length - 1 by omega, e, hl, e']
  simpa [h3, h4] using hd

theorem fibCode_length_le {x : Nat} {l : List Bool} (h : IsFibCode x l) (hx : x ≤ 2 ^ 64) : l.length ≤ 93 := by
  apply Nat.le_of_not_lt
  intro h'
  have := (fibCode_isLen h).2 92 (by omega)
  have := fibN_92
  omega

end Sdsl.Fib
