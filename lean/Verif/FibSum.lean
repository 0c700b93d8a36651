/-
  Correctness of `fibonacci::decode_prefix_sum`.
-/
import Verif.FibVec

namespace Sdsl.Fib

open Bits Spec Coder

/-- The sum of the numbers with code words of lengths `ls`. -/
def nsum (f : Nat → Bool) : List Nat → Nat
  | [] => 0
  | len :: ls => fibSum f (len - 1) + nsum (fun i => f (len + i)) ls

theorem Codes.two {f : Nat → Bool} {ls : List Nat} (h : Codes f ls) : 2 * ls.length ≤ ls.sum := by
  induction ls generalizing f with
  | nil => simp
  | cons len ls ih => have := h.1.two; have := ih h.2; simp; omega

theorem Codes.split {f : Nat → Bool} {ls : List Nat} (h : Codes f ls) {W : Nat} (hW : W ≤ ls.sum) :
    ∃ ls1 ls2, ls = ls1 ++ ls2 ∧ Codes f ls1 ∧ Codes (fun i => f (ls1.sum + i)) ls2 ∧ ls1.sum ≤ W ∧
      (∀ len r, ls2 = len :: r → W < ls1.sum + len) ∧ countTrue (cut f false) W = ls1.length := by
  induction ls generalizing f W with
  | nil => simp at hW; subst hW; exact ⟨[], [], rfl, trivial, trivial, by simp, by simp, rfl⟩
  | cons len ls ih =>
    obtain ⟨h1, h2⟩ := h
    rw [List.sum_cons] at hW
    by_cases c : len ≤ W
    · obtain ⟨a, b, e1, e2, e3, e4, e5, e6⟩ := ih h2 (W := W - len) (by omega)
      refine ⟨len :: a, b, by rw [e1]; rfl, ⟨h1, e2⟩, ?_, by simp; omega, ?_, ?_⟩
      · simpa only [List.sum_cons, Nat.add_assoc] using e3
      · intro l r hr
        have := e5 l r hr
        simp only [List.sum_cons]; omega
      · rw [show W = len + (W - len) by omega, countTrue_add, h1.count len (Nat.le_refl _), if_pos rfl, List.length_cons, ← e6, Nat.add_comm]
        congr 1
        apply countTrue_congr
        intro i _
        rw [cut_add, h1.pending_end]
    · refine ⟨[], len :: ls, rfl, trivial, ?_, by simp, ?_, ?_⟩
      · simp only [List.sum_nil, Nat.zero_add]; exact ⟨h1, h2⟩
      · intro l r hr
        simp only [List.cons.injEq] at hr
        simp only [List.sum_nil]; omega
      · rw [h1.count W (by omega), if_neg (by omega)]; rfl

theorem nsum_lt {f : Nat → Bool} {ls : List Nat} (h : Codes f ls) (hne : ls ≠ []) : nsum f ls < fibN (ls.sum - 1) := by
  induction ls generalizing f with
  | nil => simp at hne
  | cons len ls ih =>
    obtain ⟨h1, h2⟩ := h
    have t := h1.two
    have a : fibSum f (len - 1) < fibN (len - 1) := fibSum_lt (fun i hi => h1.first i (by omega))
    unfold nsum
    by_cases c : ls = []
    · subst c; simpa [nsum] using a
    · have b := ih h2 c
      have t2 := h2.two
      have : 0 < ls.length := by cases ls with | nil => exact absurd rfl c | cons _ _ => simp
      obtain ⟨s, hs⟩ : ∃ s, (len :: ls).sum - 1 = s + 2 := ⟨(len :: ls).sum - 3, by simp; omega⟩
      simp only [List.sum_cons] at hs ⊢
      rw [hs, fibN_succ]
      have m1 : fibN (len - 1) ≤ fibN s := fibN_mono (by omega)
      have m2 : fibN (ls.sum - 1) ≤ fibN (s + 1) := fibN_mono (by omega)
      omega

theorem Tail.shift {g : Nat → Bool} {len k : Nat} (h : Tail g len) (hk : k + 2 ≤ len) : Tail (fun i => g (k + i)) (len - k) := by
  refine ⟨by omega, ?_, ?_, fun i hi => ?_⟩
  · show g (k + (len - k - 2)) = true
    rw [show k + (len - k - 2) = len - 2 by omega]; exact h.top
  · show g (k + (len - k - 1)) = true
    rw [show k + (len - k - 1) = len - 1 by omega]; exact h.last
  · exact h.first (k + i) (by omega)

theorem greedy_one (len : Nat) {g : Nat → Bool} {y : Word} (h : Tail g len) (hy : ∀ i, i < len → y.getLsbD i = g i) (a : Nat) (ha : a + len ≤ 64)
    (f cnt off w : Nat) (hf : len ≤ f + 1) :
    greedyLoop f y (cnt + 1) (a + 1) off w =
      if cnt = 0 then some (off + len, w + fsum a g (len - 1))
      else greedyLoop (f - (len - 1)) (y >>> len) cnt 1 (off + len) (w + fsum a g (len - 1)) := by
  induction len generalizing g y a f off w with
  | zero => exact absurd h.two (by omega)
  | succ len ih =>
    have h2 := h.two
    obtain ⟨f, rfl⟩ : ∃ f', f = f' + 1 := ⟨f - 1, by omega⟩
    have hfib : (ltFib.getD (a + 1 - 1) 0#64).toNat = fibN a := by
      rw [Nat.add_sub_cancel, ltFib_getD (by omega), toNat_fib (by omega)]
    by_cases c : len = 1
    · subst c
      have t := h.top
      have l := h.last
      simp only [Nat.reduceAdd, Nat.reduceSub] at t l
      conv => lhs; unfold greedyLoop
      rw [hy 0 (by omega), hy 1 (by omega), t, l, if_pos rfl, if_pos rfl, hfib, Nat.add_sub_cancel]
      have e : fsum a g 1 = fibN a := by simp [fsum, t]
      simp only [Nat.reduceAdd, Nat.reduceSub, e, Nat.add_sub_cancel]
    · have hs := h.shift (k := 1) (by omega)
      have he : fsum a g len = (if g 0 then fibN a else 0) + fsum (a + 1) (fun i => g (1 + i)) (len - 1) := by
        have := fsum_add a g 1 (len - 1)
        rw [show 1 + (len - 1) = len by omega] at this
        rw [this]; simp [fsum]
      rw [show len + 1 - 1 = len by omega] at hs
      have key : ∀ w', greedyLoop f (y >>> 1) (cnt + 1) (a + 1 + 1) (off + 1) w' =
          if cnt = 0 then some (off + (len + 1), w' + fsum (a + 1) (fun i => g (1 + i)) (len - 1))
          else greedyLoop (f + 1 - len) (y >>> (len + 1)) cnt 1 (off + (len + 1)) (w' + fsum (a + 1) (fun i => g (1 + i)) (len - 1)) := by
        intro w'
        rw [ih (y := y >>> 1) hs (fun i hi => by rw [BitVec.getLsbD_ushiftRight, hy _ (by omega)]) (a + 1) (by omega) f (off + 1) w' (by omega)]
        rw [show off + 1 + len = off + (len + 1) by omega, show f - (len - 1) = f + 1 - len by omega, ← BitVec.shiftRight_add, Nat.add_comm 1 len]
      rw [Nat.add_sub_cancel, he]
      conv => lhs; unfold greedyLoop
      rw [hy 0 (by omega), hy 1 (by omega)]
      cases g0 : g 0 with
      | false => simp only [Bool.false_eq_true, if_false, Nat.zero_add]; exact key w
      | true =>
        have g1 : g 1 = false := by
          have := h.first 0 (by omega)
          cases hg : g 1 with
          | false => rfl
          | true => exact absurd ⟨g0, hg⟩ this
        simp only [g1, Bool.false_eq_true, if_false, if_true]
        rw [hfib, key, Nat.add_assoc]

theorem greedyLoop_eq {g : Nat → Bool} {ls : List Nat} (h : Codes g ls) (hne : ls ≠ []) {y : Word} (hy : ∀ i, i < ls.sum → y.getLsbD i = g i)
    (h64 : ls.sum ≤ 64) (f off w : Nat) (hf : ls.sum ≤ f) : greedyLoop f y ls.length 1 off w = some (off + ls.sum, w + nsum g ls) := by
  induction ls generalizing g y f off w with
  | nil => simp at hne
  | cons len ls ih =>
    obtain ⟨h1, h2⟩ := h
    have t := h1.two
    simp only [List.sum_cons] at hy h64 hf
    rw [List.length_cons, greedy_one len h1 (fun i hi => hy i (by omega)) 0 (by omega) f ls.length off w (by omega), fsum_zero]
    unfold nsum
    by_cases c : ls = []
    · subst c; simp [nsum]
    · rw [if_neg (by cases ls <;> simp_all), ih h2 c (fun i hi => by rw [BitVec.getLsbD_ushiftRight, hy _ (by omega)]) (by omega) _ _ _ (by omega)]
      simp only [List.sum_cons, Nat.add_assoc]

theorem mask16 (w : Word) (i : Nat) : (w &&& 0xFFFF#64).getLsbD i = (decide (i < 16) && w.getLsbD i) := by
  rw [BitVec.getLsbD_and]
  by_cases hi : i < 64
  · have : ∀ i : Fin 64, (0xFFFF#64).getLsbD i.val = decide (i.val < 16) := by decide
    rw [this ⟨i, hi⟩, Bool.and_comm]
  · rw [BitVec.getLsbD_of_ge _ _ (by omega)]; simp

theorem greedy_eq {g : Nat → Bool} {ls : List Nat} (h : Codes g ls) {x : Word} {W : Nat} (hW : W ≤ 16) (hs : W ≤ ls.sum)
    (hx : ∀ i, i < 64 → x.getLsbD i = (decide (i < W) && g i)) :
    ∃ ls1 ls2 t, ls = ls1 ++ ls2 ∧ Codes g ls1 ∧ Codes (fun i => g (ls1.sum + i)) ls2 ∧ ls1.sum ≤ W ∧
      (∀ len r, ls2 = len :: r → W < ls1.sum + len) ∧ greedy x = some t ∧ t / 2 ^ 11 = ls1.sum ∧ t &&& 0x7FF = nsum g ls1 := by
  obtain ⟨ls1, ls2, e1, e2, e3, e4, e5, e6⟩ := h.split hs
  have hc := cnt11_win (w := x) (f := g) (b := W) (by omega) hx
  rw [e6] at hc
  have h2 := e2.two
  by_cases c : ls1 = []
  · refine ⟨ls1, ls2, 0, e1, e2, e3, e4, e5, ?_, by simp [c], by simp [c, nsum]⟩
    unfold greedy
    rw [if_neg]
    intro hne
    apply hne
    apply BitVec.eq_of_toNat_eq
    rw [hc, c]; rfl
  · have hpos : 0 < ls1.length := by cases ls1 with | nil => exact absurd rfl c | cons _ _ => simp
    have hlt : nsum g ls1 < 2 ^ 11 := by
      have a := nsum_lt e2 c
      have b := fibN_mono (a := ls1.sum - 1) (b := 15) (by omega)
      have : fibN 15 = 1597 := by decide
      omega
    have hor : ls1.sum * 2 ^ 11 ||| nsum g ls1 = ls1.sum * 2 ^ 11 + nsum g ls1 := by
      rw [Nat.mul_comm, Nat.two_pow_add_eq_or_of_lt hlt]
    refine ⟨ls1, ls2, ls1.sum * 2 ^ 11 + nsum g ls1, e1, e2, e3, e4, e5, ?_, by omega, ?_⟩
    · unfold greedy
      rw [if_pos (by intro h0; rw [h0] at hc; simp at hc; omega), hc, greedyLoop_eq e2 c (fun i hi => by
        rw [hx i (by omega)]; have : i < W := by omega
        simp [this]) (by omega) 16 0 0 (by omega), sbind, Nat.zero_add, Nat.zero_add]
      dsimp only
      rw [Nat.mod_eq_of_lt (a := nsum g ls1) (by omega), hor, Nat.mod_eq_of_lt (by omega)]
      rfl
    · rw [show (0x7FF : Nat) = 2 ^ 11 - 1 from rfl, Nat.and_two_pow_sub_one_eq_mod]
      omega

/-! ### The number of bits -/

theorem sel11_eq (x : Word) (c : Bool) {i : Nat} (h1 : 1 ≤ i) (h2 : i ≤ countTrue (cut (fun i => x.getLsbD i) c) 64) :
    ∃ p, sel11 x i (BitVec.ofNat 64 c.toNat) = some p ∧ IsSelect (cut (fun i => x.getLsbD i) c) 64 i p := by
  have ce : ∀ {n : Nat}, n ≤ 64 → countTrue (fun i => (ends11 x (BitVec.ofNat 64 c.toNat)).getLsbD i) n = countTrue (cut (fun i => x.getLsbD i) c) n :=
    fun hn => countTrue_congr fun i hi => ends11_getLsbD x c (by omega)
  rw [← ce (Nat.le_refl _)] at h2
  obtain ⟨p, e, hp1, hp2, hp3⟩ := sel_eq h1 h2
  refine ⟨p, e, hp1, ?_, ?_⟩
  · rw [← ends11_getLsbD x c hp1]; exact hp2
  · rw [← ce (by omega)]; exact hp3

/-- The bits from word `P` on, those before bit `r` cleared. -/
def msk (m : Mem) (P r : Nat) (j : Nat) : Bool := decide (r ≤ j) && bitAt m (64 * P + j)

theorem msk_word {m : Mem} {P r w : Nat} (hw : P + w < m.length) (hr : r ≤ 64 * w) {j : Nat} (hj : j < 64) :
    m[P + w].getLsbD j = msk m P r (64 * w + j) := by
  unfold msk
  rw [show 64 * P + (64 * w + j) = 64 * (P + w) + j by omega, bitAt_mul_add hj hw]
  have : r ≤ 64 * w + j := by omega
  simp [this]

theorem pend_cnt {m : Mem} {P r w : Nat} (hw : P + w < m.length) (hr : r ≤ 64 * w) :
    cnt11c m[P + w] (BitVec.ofNat 64 (pending (msk m P r) false (64 * w)).toNat) =
      (BitVec.ofNat 64 (countTrue (fun j => cut (msk m P r) false (64 * w + j)) 64),
        BitVec.ofNat 64 (pending (msk m P r) false (64 * (w + 1))).toNat) := by
  rw [cnt11c_eq, Nat.mul_add, pending_add]
  congr 2
  · apply countTrue_congr
    intro j hj
    rw [cut_add]
    exact cut_congr (fun i hi => msk_word hw hr (by omega))
  · congr 1
    exact pending_congr (fun i hi => msk_word hw hr (by omega))

theorem endLoop_eq {m : Mem} {P r n : Nat} (hr : r < 64) {T : Nat} (hT : 64 * P + T ≤ 64 * m.length) (hn : n ≤ countTrue (cut (msk m P r) false) T)
    (f w : Nat) (hlt : countTrue (cut (msk m P r) false) (64 * (w + 1)) < n) (hf : m.length ≤ P + w + f) :
    ∃ w' i t c, endLoop m P n f w (countTrue (cut (msk m P r) false) (64 * (w + 1))) (BitVec.ofNat 64 (pending (msk m P r) false (64 * (w + 1))).toNat) =
        some (w' + 1, i, t, BitVec.ofNat 64 (pending (msk m P r) false (64 * (w' + 1))).toNat) ∧ c = 0 ∧
      i - t = countTrue (cut (msk m P r) false) (64 * (w' + 1)) ∧ i - t < n ∧ n ≤ countTrue (cut (msk m P r) false) (64 * (w' + 2)) ∧
      P + (w' + 1) < m.length := by
  induction f generalizing w with
  | zero =>
    have := countTrue_mono (cut (msk m P r) false) (a := T) (b := 64 * (w + 1)) (by omega)
    omega
  | succ f ih =>
    have hwl : P + (w + 1) < m.length := by
      apply Nat.lt_of_not_le
      intro hge
      have := countTrue_mono (cut (msk m P r) false) (a := T) (b := 64 * (w + 1)) (by omega)
      omega
    unfold endLoop
    rw [ld_of_lt hwl, sbind]
    dsimp only
    rw [pend_cnt hwl (by omega)]
    dsimp only
    have hle := countTrue_le (fun j => cut (msk m P r) false (64 * (w + 1) + j)) 64
    have hadd : countTrue (cut (msk m P r) false) (64 * (w + 1)) + countTrue (fun j => cut (msk m P r) false (64 * (w + 1) + j)) 64 =
        countTrue (cut (msk m P r) false) (64 * (w + 2)) := by
      rw [show 64 * (w + 2) = 64 * (w + 1) + 64 by omega, countTrue_add]
    rw [BitVec.toNat_ofNat, Nat.mod_eq_of_lt (by omega), hadd]
    by_cases c : countTrue (cut (msk m P r) false) (64 * (w + 2)) < n
    · rw [if_pos c]
      exact ih (w + 1) c (by omega)
    · rw [if_neg c]
      exact ⟨w, _, _, 0, rfl, rfl, by omega, by omega, by omega, hwl⟩

theorem msk_cut {m : Mem} {q : Nat} (k : Nat) :
    countTrue (cut (msk m (q / 64) (q % 64)) false) (q % 64 + k) = countTrue (cut (fun i => bitAt m (q + i)) false) k ∧
    cut (msk m (q / 64) (q % 64)) false (q % 64 + k) = cut (fun i => bitAt m (q + i)) false k := by
  have hp : ∀ n, n ≤ q % 64 → pending (msk m (q / 64) (q % 64)) false n = false := by
    intro n hn
    cases n with
    | zero => rfl
    | succ n => unfold pending msk; simp; omega
  have hc : ∀ k, cut (msk m (q / 64) (q % 64)) false (q % 64 + k) = cut (fun i => bitAt m (q + i)) false k := by
    intro k
    rw [cut_add, hp _ (Nat.le_refl _)]
    apply cut_congr
    intro i _
    unfold msk
    rw [show 64 * (q / 64) + (q % 64 + i) = q + i by omega]
    simp
  refine ⟨?_, hc k⟩
  rw [countTrue_add]
  have : countTrue (cut (msk m (q / 64) (q % 64)) false) (q % 64) = 0 := by
    rw [← countTrue_false (q % 64)]
    apply countTrue_congr
    intro i hi
    unfold cut msk
    simp; omega
  rw [this, Nat.zero_add]
  exact countTrue_congr (fun i _ => hc i)

theorem bitsToDecode_eq {m : Mem} {q : Nat} {ls : List Nat} (hc : Codes (fun i => bitAt m (q + i)) ls) (hne : ls ≠ [])
    (hm : q + ls.sum ≤ 64 * m.length) (h31 : ls.sum < 2 ^ 31) : bitsToDecode m q ls.length = some ls.sum := by
  obtain ⟨n1, -, n3⟩ := hc.count
  have h2 := hc.two
  have hlen : 0 < ls.length := by cases ls with | nil => exact absurd rfl hne | cons _ _ => simp
  -- the last code word ends at `ls.sum`
  have hsel : IsSelect (cut (fun i => bitAt m (q + i)) false) ls.sum ls.length (ls.sum - 1) := by
    obtain ⟨p, p1, p2, p3⟩ := IsSelect.exists (f := cut (fun i => bitAt m (q + i)) false) (n := ls.sum) (i := ls.length) hlen (by omega)
    have : p = ls.sum - 1 := by
      apply Nat.le_antisymm (by omega)
      apply Nat.le_of_not_lt
      intro hlt
      have a := n3 (p + 1) (by omega)
      have b : countTrue (cut (fun i => bitAt m (q + i)) false) (p + 1) = countTrue (cut (fun i => bitAt m (q + i)) false) p + 1 := by
        conv => lhs; unfold countTrue
        rw [p2]; simp
      omega
    rw [← this]; exact ⟨p1, p2, p3⟩
  have hr : q % 64 < 64 := Nat.mod_lt _ (by decide)
  have hP : q / 64 < m.length := by omega
  have hd : ∀ j, j < 64 → (m[q / 64] &&& ~~~(BitVec.ofNat 64 (2 ^ (q % 64) - 1))).getLsbD j = msk m (q / 64) (q % 64) j := by
    intro j hj
    rw [BitVec.getLsbD_and, BitVec.getLsbD_not, getLsbD_ones]
    unfold msk
    rw [bitAt_mul_add hj hP]
    by_cases c : q % 64 ≤ j
    · have : ¬ j < q % 64 := by omega
      simp [c, hj, this]
    · have : j < q % 64 := by omega
      simp [c, hj, this]
  have hcnt : cnt11c (m[q / 64] &&& ~~~(BitVec.ofNat 64 (2 ^ (q % 64) - 1))) 0#64 =
      (BitVec.ofNat 64 (countTrue (cut (msk m (q / 64) (q % 64)) false) 64), BitVec.ofNat 64 (pending (msk m (q / 64) (q % 64)) false 64).toNat) := by
    have := cnt11c_eq (m[q / 64] &&& ~~~(BitVec.ofNat 64 (2 ^ (q % 64) - 1))) false
    rw [show BitVec.ofNat 64 false.toNat = 0#64 from rfl] at this
    rw [this]
    congr 2
    · exact countTrue_congr (fun j hj => cut_congr (fun i hi => hd i (by omega)))
    · congr 1
      exact pending_congr (fun i hi => hd i (by omega))
  have hle := countTrue_le (cut (msk m (q / 64) (q % 64)) false) 64
  unfold bitsToDecode
  dsimp only
  rw [ld_of_lt hP, sbind, loSet_eq (by omega), sbind, hcnt]
  dsimp only
  rw [BitVec.toNat_ofNat, Nat.mod_eq_of_lt (by omega)]
  by_cases c : countTrue (cut (msk m (q / 64) (q % 64)) false) 64 < ls.length
  · rw [if_pos c]
    have hT := (msk_cut (m := m) (q := q) ls.sum).1
    obtain ⟨w, i, t, _, e1, -, e2, e3, e4, e5⟩ := endLoop_eq (m := m) (P := q / 64) (n := ls.length) hr (T := q % 64 + ls.sum) (by omega) (by omega)
      m.length 0 c (by omega)
    rw [Nat.zero_add, Nat.mul_one] at e1
    rw [e1, sbind]
    dsimp only
    rw [ld_of_lt e5, sbind]
    have hcw : ∀ j, j < 64 → cut (fun j => m[q / 64 + (w + 1)].getLsbD j) (pending (msk m (q / 64) (q % 64)) false (64 * (w + 1))) j =
        cut (msk m (q / 64) (q % 64)) false (64 * (w + 1) + j) := by
      intro j hj
      rw [cut_add]
      exact cut_congr (fun i hi => msk_word e5 (by omega) (by omega))
    have hadd : countTrue (cut (msk m (q / 64) (q % 64)) false) (64 * (w + 2)) = countTrue (cut (msk m (q / 64) (q % 64)) false) (64 * (w + 1)) +
        countTrue (fun j => cut (msk m (q / 64) (q % 64)) false (64 * (w + 1) + j)) 64 := by
      rw [show 64 * (w + 2) = 64 * (w + 1) + 64 by omega, countTrue_add]
    obtain ⟨s, s1, s2⟩ := sel11_eq m[q / 64 + (w + 1)] (pending (msk m (q / 64) (q % 64)) false (64 * (w + 1))) (i := ls.length - (i - t)) (by omega)
      (by rw [countTrue_congr (fun j hj => hcw j hj)]; omega)
    rw [s1, sbind]
    have hs : 64 * (w + 1) + s = q % 64 + (ls.sum - 1) := by
      have a : IsSelect (cut (msk m (q / 64) (q % 64)) false) (64 * (w + 1) + 64 + q % 64 + ls.sum) ls.length (64 * (w + 1) + s) := by
        refine ⟨by have := s2.1; omega, by rw [← hcw s s2.1]; exact s2.2.1, ?_⟩
        rw [countTrue_add]
        have := s2.2.2
        rw [countTrue_congr (fun j hj => hcw j (by have := s2.1; omega))] at this
        omega
      have b : IsSelect (cut (msk m (q / 64) (q % 64)) false) (64 * (w + 1) + 64 + q % 64 + ls.sum) ls.length (q % 64 + (ls.sum - 1)) :=
        ⟨by omega, by rw [(msk_cut _).2]; exact hsel.2.1, by rw [(msk_cut _).1]; exact hsel.2.2⟩
      exact a.unique b
    have hfin : (w + 1 - 1) * 64 + s + 65 - q % 64 = ls.sum := by omega
    rw [hfin, if_pos h31]; rfl
  · rw [if_neg c, shr_of_lt hr, sbind]
    have hb : ∀ i, i < 64 → (m[q / 64] >>> (q % 64)).getLsbD i = (decide (i < 64 - q % 64) && bitAt m (q + i)) := by
      intro i hi
      rw [BitVec.getLsbD_ushiftRight]
      by_cases ci : i < 64 - q % 64
      · rw [show q + i = 64 * (q / 64) + (q % 64 + i) by omega, bitAt_mul_add (by omega) hP]; simp [ci]
      · rw [BitVec.getLsbD_of_ge _ _ (by omega)]; simp [ci]
    have hw := cnt11_win (w := m[q / 64] >>> (q % 64)) (b := 64 - q % 64) (by omega) hb
    rw [cnt11_eq, BitVec.toNat_ofNat] at hw
    have hle2 := countTrue_le (cut (fun i => (m[q / 64] >>> (q % 64)).getLsbD i) false) 64
    rw [Nat.mod_eq_of_lt (by omega)] at hw
    have hk := (msk_cut (m := m) (q := q) (64 - q % 64)).1
    rw [show q % 64 + (64 - q % 64) = 64 by omega] at hk
    obtain ⟨s, s1, s2⟩ := sel11_eq (m[q / 64] >>> (q % 64)) false (i := ls.length) hlen (by omega)
    rw [show BitVec.ofNat 64 false.toNat = 0#64 from rfl] at s1
    rw [s1, sbind]
    have hlt : s < 64 - q % 64 := by
      have := s2.2.1
      unfold cut at this
      simp only [Bool.and_eq_true] at this
      rw [hb s s2.1] at this
      simp at this
      omega
    have hs : s = ls.sum - 1 := by
      have hcc : ∀ j, j < 64 - q % 64 → cut (fun i => (m[q / 64] >>> (q % 64)).getLsbD i) false j = cut (fun i => bitAt m (q + i)) false j := by
        intro j hj
        apply cut_congr
        intro i hi
        rw [hb i (by omega)]
        have : i < 64 - q % 64 := by omega
        simp [this]
      have a : IsSelect (cut (fun i => bitAt m (q + i)) false) (64 + ls.sum) ls.length s :=
        ⟨by omega, by rw [← hcc s hlt]; exact s2.2.1, by rw [← countTrue_congr (fun j hj => hcc j (by omega))]; exact s2.2.2⟩
      exact a.unique (hsel.mono (by omega))
    rw [show s + 1 = ls.sum by omega]; rfl

/-! ### The main loop -/

/-- The buffer holds the bits from `q` on; the codes end at `E`. -/
structure PInv (m : Mem) (q E : Nat) (b : Buf) (btd : Nat) : Prop where
  le : b.buffered ≤ 64
  tot : q + b.buffered + btd = E
  bits : ∀ i, i < 64 → b.w.getLsbD i = (decide (i < b.buffered) && bitAt m (q + i))
  src : 0 < btd → b.read < 64 ∧ q + b.buffered = 64 * b.p + b.read

theorem clamp_eq {m : Mem} {q E : Nat} {b b' : Buf} {btd : Nat} (h : PInv m q E b btd) (h' : BInv m q b') (hlt : b.buffered < b'.buffered) :
    ∃ b2 btd2, clampBuf b' btd (b'.buffered - b.buffered) = some (b2, btd2) ∧ PInv m q E b2 btd2 ∧
      (btd2 = 0 ∨ b.buffered < b2.buffered) := by
  have ht := h.tot
  have hle := h'.le
  unfold clampBuf
  by_cases c : btd < b'.buffered - b.buffered
  · rw [if_pos c, if_neg (by omega), loSet_eq (by omega), sbind]
    refine ⟨_, _, rfl, ⟨?_, ?_, ?_, by simp⟩, Or.inl rfl⟩
    · show b'.buffered - (b'.buffered - b.buffered - btd) ≤ 64; omega
    · show q + (b'.buffered - (b'.buffered - b.buffered - btd)) + 0 = E; omega
    · intro i hi
      show (b'.w &&& BitVec.ofNat 64 (2 ^ (b'.buffered - (b'.buffered - b.buffered - btd)) - 1)).getLsbD i = _
      rw [BitVec.getLsbD_and, getLsbD_ones, h'.bits i hi]
      generalize hk : b'.buffered - (b'.buffered - b.buffered - btd) = k
      by_cases ci : i < k
      · have : i < b'.buffered := by omega
        simp [ci, this, hi]
      · simp [ci]
  · rw [if_neg c]
    exact ⟨b', _, rfl, ⟨hle, by omega, h'.bits, fun _ => ⟨h'.read, h'.pos⟩⟩, Or.inr hlt⟩

theorem fill_eq {m : Mem} {q E : Nat} (hE : E ≤ 64 * m.length) (f : Nat) {b : Buf} {btd : Nat} (h : PInv m q E b btd) (hf : 64 ≤ b.buffered + f) :
    ∃ b' btd', fill m f b btd = some (b', btd') ∧ PInv m q E b' btd' ∧ (b'.buffered = 64 ∨ btd' = 0) := by
  induction f generalizing b btd with
  | zero =>
    have := h.le
    unfold fill
    rw [if_neg (by omega)]
    exact ⟨b, btd, rfl, h, by omega⟩
  | succ f ih =>
    have := h.le
    unfold fill
    by_cases c : b.buffered < 64 ∧ 0 < btd
    · obtain ⟨r1, r2⟩ := h.src c.2
      have ht := h.tot
      obtain ⟨b1, e1, e2, e3⟩ := loadStep_eq (b := b) ⟨h.le, r1, r2, h.bits⟩ c.1 (by omega)
      obtain ⟨b2, btd2, d1, d2, d3⟩ := clamp_eq h e2 e3
      rw [if_pos c, e1, sbind, d1, sbind]
      dsimp only
      rcases d3 with d3 | d3
      · subst d3
        refine ⟨b2, 0, ?_, d2, Or.inr rfl⟩
        cases f with
        | zero => unfold fill; rw [if_neg (by omega)]
        | succ f => unfold fill; rw [if_neg (by omega)]
      · exact ih d2 (by omega)
    · rw [if_neg c]
      exact ⟨b, btd, rfl, h, by omega⟩

theorem pdrop {m : Mem} {q E : Nat} {b : Buf} {btd : Nat} (h : PInv m q E b btd) {k : Nat} (hk : k ≤ b.buffered) (hk64 : k < 64) :
    ∃ b', b.drop k = some b' ∧ PInv m (q + k) E b' btd ∧ b'.buffered = b.buffered - k := by
  have hle := h.le
  have ht := h.tot
  unfold Buf.drop
  rw [if_neg (by omega), shr_of_lt hk64, sbind]
  refine ⟨_, rfl, ⟨by show b.buffered - k ≤ 64; omega, by show q + k + (b.buffered - k) + btd = E; omega, fun i hi => ?_, fun hp => ?_⟩, rfl⟩
  · show (b.w >>> k).getLsbD i = (decide (i < b.buffered - k) && bitAt m (q + k + i))
    rw [BitVec.getLsbD_ushiftRight]
    by_cases c : k + i < 64
    · rw [h.bits _ c, Nat.add_assoc]
      congr 1
      simp; omega
    · rw [BitVec.getLsbD_of_ge _ _ (by omega)]
      have : ¬ i < b.buffered - k := by omega
      simp [this]
  · have := h.src hp
    exact ⟨this.1, by show q + k + (b.buffered - k) = 64 * b.p + b.read; omega⟩

/-- What is left to do: code words of lengths `ls` at `q`. -/
structure Left (m : Mem) (q E : Nat) (ls : List Nat) (v tgt : Word) : Prop where
  codes : Codes (fun i => bitAt m (q + i)) ls
  tot : q + ls.sum = E
  le : ∀ l ∈ ls, l ≤ 93
  val : v + sumW (vals m q ls) = tgt

theorem vals_append (m : Mem) (q : Nat) (a b : List Nat) : vals m q (a ++ b) = vals m q a ++ vals m (q + a.sum) b := by
  induction a generalizing q with
  | nil => simp [vals]
  | cons l a ih => simp only [List.cons_append, vals, List.sum_cons, ih, Nat.add_assoc]

theorem sumW_append (a b : List Word) : sumW (a ++ b) = sumW a + sumW b := by
  induction a with
  | nil => simp [sumW]
  | cons x a ih => rw [List.cons_append, sumW_cons, sumW_cons, ih, BitVec.add_assoc]

theorem sumW_vals {m : Mem} {q : Nat} {ls : List Nat} : sumW (vals m q ls) = BitVec.ofNat 64 (nsum (fun i => bitAt m (q + i)) ls) := by
  induction ls generalizing q with
  | nil => rfl
  | cons len ls ih =>
    rw [vals, sumW_cons, ih, nsum, BitVec.ofNat_add]
    simp only [Nat.add_assoc]

theorem Left.split {m : Mem} {q E : Nat} {a b : List Nat} {v tgt : Word} (h : Left m q E (a ++ b) v tgt)
    (hc : Codes (fun i => bitAt m (q + (a.sum + i))) b) :
    Left m (q + a.sum) E b (v + BitVec.ofNat 64 (nsum (fun i => bitAt m (q + i)) a)) tgt := by
  refine ⟨by simpa only [Nat.add_assoc] using hc, by have := h.tot; rw [List.sum_append] at this; omega, fun l hl => h.le l (by simp [hl]), ?_⟩
  have := h.val
  rw [vals_append, sumW_append, sumW_vals, ← BitVec.add_assoc] at this
  exact this

theorem codes_ones {f : Nat → Bool} (c : Nat) {ls : List Nat} (h : Codes f ls) (hs : 2 * c ≤ ls.sum) (h1 : ∀ i, i < 2 * c → f i = true) :
    ∃ r, ls = List.replicate c 2 ++ r ∧ Codes (fun i => f (2 * c + i)) r ∧ nsum f (List.replicate c 2) = c := by
  induction c generalizing f ls with
  | zero => exact ⟨ls, rfl, by simpa using h, rfl⟩
  | succ c ih =>
    cases ls with
    | nil => simp at hs
    | cons len ls =>
      obtain ⟨t, h2⟩ := h
      have t2 := t.two
      have hlen : len = 2 := by
        apply Nat.le_antisymm _ t2
        apply Nat.le_of_not_lt
        intro hgt
        exact t.first 0 (by omega) ⟨h1 0 (by omega), h1 1 (by omega)⟩
      subst hlen
      simp only [List.sum_cons] at hs
      obtain ⟨r, r1, r2, r3⟩ := ih h2 (by omega) (fun i hi => h1 (2 + i) (by omega))
      refine ⟨r, by rw [r1]; rfl, ?_, ?_⟩
      · have e : (fun i => f (2 * (c + 1) + i)) = fun i => f (2 + (2 * c + i)) := by funext i; congr 1; omega
        rw [e]; exact r2
      · rw [List.replicate_succ, nsum, r3]
        simp [fibSum, h1 0 (by omega), fibN, fibPair]; omega

theorem mask24 {w : Word} (h : w &&& 0xFFFFFF#64 = 0xFFFFFF#64) {i : Nat} (hi : i < 24) : w.getLsbD i = true := by
  have := congrArg (fun x => BitVec.getLsbD x i) h
  simp only [BitVec.getLsbD_and] at this
  have t : ∀ i : Fin 24, (0xFFFFFF#64).getLsbD i.val = true := by decide
  rw [t ⟨i, hi⟩] at this
  simpa using this

theorem ones24_eq {m : Mem} {q E : Nat} {b : Buf} {btd : Nat} {ls : List Nat} {v tgt : Word} (h : PInv m q E b btd) (hl : Left m q E ls v tgt) :
    ∃ b' v' fl q' ls', ones24 b v = some (b', v', fl) ∧ PInv m q' E b' btd ∧ Left m q' E ls' v' tgt ∧ b.buffered ≤ b'.buffered + 24 ∧
      q ≤ q' ∧ (fl = true → q < q') := by
  unfold ones24
  by_cases c : b.w &&& 0xFFFFFF#64 = 0xFFFFFF#64
  · rw [if_pos c]
    have hb : 24 ≤ b.buffered := by
      apply Nat.le_of_not_lt
      intro hlt
      have h1 := mask24 c (i := 23) (by decide)
      rw [h.bits 23 (by decide)] at h1
      simp at h1; omega
    obtain ⟨b', d1, d2, d3⟩ := pdrop h hb (by decide)
    have ht := h.tot
    have ht2 := hl.tot
    obtain ⟨r, r1, r2, r3⟩ := codes_ones 12 hl.codes (by omega) (fun i hi => by
      have h1 := mask24 c (i := i) (by omega)
      rw [h.bits i (by omega)] at h1
      simp at h1; exact h1.2)
    rw [d1, sbind]
    refine ⟨b', _, _, q + 24, r, rfl, d2, ?_, by omega, by omega, fun _ => by omega⟩
    rw [r1] at hl
    have := hl.split r2
    rw [r3] at this
    exact this
  · rw [if_neg c]
    exact ⟨b, v, false, q, ls, rfl, h, hl, by omega, by omega, by simp⟩

theorem ones_eq {m : Mem} {q E : Nat} {b : Buf} {btd : Nat} {ls : List Nat} {v tgt : Word} (h : PInv m q E b btd) (hl : Left m q E ls v tgt) :
    ∃ b' v' q' ls', ones b v = some (b', v') ∧ PInv m q' E b' btd ∧ Left m q' E ls' v' tgt ∧ b.buffered ≤ b'.buffered + 48 ∧
      q ≤ q' := by
  obtain ⟨b1, v1, fl, q1, l1, e1, e2, e3, e4, e5, _⟩ := ones24_eq h hl
  unfold ones
  rw [e1, sbind]
  dsimp only
  cases fl with
  | false => rw [if_neg (by decide)]; exact ⟨b1, v1, q1, l1, rfl, e2, e3, by omega, e5⟩
  | true =>
    rw [if_pos rfl]
    obtain ⟨b2, v2, fl, q2, l2, d1, d2, d3, d4, d5, _⟩ := ones24_eq e2 e3
    rw [d1, sbind]
    exact ⟨b2, v2, q2, l2, rfl, d2, d3, by omega, by omega⟩

/-- State between two rounds: at the start of a code word (`i = 0`) or after `i` chunks of it. -/
def Mid (m : Mem) (q E i : Nat) (v tgt : Word) : Prop :=
  if i = 0 then ∃ ls, Left m q E ls v tgt
  else ∃ len ls, Codes (fun j => bitAt m (q + j)) (len :: ls) ∧ q + (len :: ls).sum = E ∧ (∀ l ∈ ls, l ≤ 93) ∧ 12 * i + len ≤ 93 ∧
    v + (BitVec.ofNat 64 (fsum (12 * i) (fun j => bitAt m (q + j)) (len - 1)) + sumW (vals m (q + len) ls)) = tgt

/-- What a round has to deliver. -/
def RoundOk (m : Mem) (q E btd : Nat) (tgt : Word) : Round → Prop
  | .stop v => v = tgt
  | .go b i v => ∃ q', q < q' ∧ PInv m q' E b btd ∧ Mid m q' E i v tgt

/-- Consuming 12 bits of a longer code word. -/
theorem chunk {m : Mem} {q E i len : Nat} {ls : List Nat} {v tgt : Word} (hc : Codes (fun j => bitAt m (q + j)) (len :: ls))
    (ht : q + (len :: ls).sum = E) (hl : ∀ l ∈ ls, l ≤ 93) (h93 : 12 * i + len ≤ 93) (h13 : 13 < len)
    (hv : v + (BitVec.ofNat 64 (fsum (12 * i) (fun j => bitAt m (q + j)) (len - 1)) + sumW (vals m (q + len) ls)) = tgt) :
    Mid m (q + 12) E (i + 1) (v + BitVec.ofNat 64 (fsum (12 * i) (fun j => bitAt m (q + j)) 12)) tgt := by
  unfold Mid
  rw [if_neg (by omega)]
  obtain ⟨h1, h2⟩ := hc
  refine ⟨len - 12, ls, ⟨?_, ?_⟩, ?_, hl, by omega, ?_⟩
  · have := h1.shift (k := 12) (by omega)
    simpa only [Nat.add_assoc] using this
  · have : (fun j => bitAt m (q + 12 + (len - 12 + j))) = fun j => bitAt m (q + (len + j)) := by funext j; congr 1; omega
    rw [this]; exact h2
  · simp only [List.sum_cons] at ht ⊢; omega
  · have hs := fsum_add (12 * i) (fun j => bitAt m (q + j)) 12 (len - 12 - 1)
    rw [show 12 + (len - 12 - 1) = len - 1 by omega] at hs
    have hs2 : fsum (12 * i + 12) (fun j => bitAt m (q + (12 + j))) (len - 12 - 1) =
        fsum (12 * (i + 1)) (fun j => bitAt m (q + 12 + j)) (len - 12 - 1) := by
      simp only [Nat.add_assoc]; rfl
    rw [hs2] at hs
    rw [hs, BitVec.ofNat_add, BitVec.add_assoc] at hv
    rw [BitVec.add_assoc, show q + 12 + (len - 12) = q + len by omega]
    exact hv

theorem inner_eq {m : Mem} {E btd : Nat} {tgt : Word} (f q : Nat) {b : Buf} {ls : List Nat} {v : Word} (h : PInv m q E b btd)
    (hl : Left m q E ls v tgt) (hb : 16 ≤ b.buffered ∨ btd = 0) (hf : b.buffered < f + 1) (hf0 : 0 < f) :
    ∃ r, inner btd f b v = some r ∧ RoundOk m q E btd tgt r := by
  induction f generalizing q b ls v with
  | zero => omega
  | succ f ih =>
    have ht := h.tot
    have ht2 := hl.tot
    obtain ⟨l1, l2, t, e1, e2, e3, e4, e5, e6, e7, e8⟩ := greedy_eq (x := b.w &&& 0xFFFF#64) (W := min 16 b.buffered) hl.codes (by omega) (by omega) (by
      intro i hi
      rw [mask16, h.bits i hi, ← Bool.and_assoc, ← Bool.decide_and]
      congr 1
      apply decide_eq_decide.mpr
      omega)
    unfold inner
    rw [e6, sbind, e7, e8]
    by_cases c : 0 < l1.sum
    · rw [if_pos c]
      obtain ⟨b', d1, d2, d3⟩ := pdrop h (k := l1.sum) (by omega) (by omega)
      dsimp only
      rw [d1, sbind]
      rw [e1] at hl
      have hl' := hl.split e3
      by_cases c2 : 15 < b'.buffered
      · rw [if_pos c2]
        obtain ⟨r, r1, r2⟩ := ih (q + l1.sum) d2 hl' (Or.inl (by omega)) (by omega) (by omega)
        refine ⟨r, r1, ?_⟩
        cases r with
        | stop v => exact r2
        | go b2 i2 v2 =>
          obtain ⟨q', a1, a2⟩ := r2
          exact ⟨q', by omega, a2⟩
      · rw [if_neg c2]
        exact ⟨_, rfl, q + l1.sum, by omega, d2, by unfold Mid; rw [if_pos rfl]; exact ⟨l2, hl'⟩⟩
    · rw [if_neg c]
      have hl1 : l1 = [] := by
        cases l1 with
        | nil => rfl
        | cons a l1 => have := e2.1.two; simp at c; omega
      subst hl1
      simp only [List.nil_append, List.sum_nil, Nat.zero_add] at e1 e3 e5
      subst e1
      cases ls with
      | nil =>
        have hw0 : b.w &&& 0xFFF#64 = 0#64 := by
          apply BitVec.eq_of_getLsbD_eq
          intro i hi
          rw [mask12, h.bits i hi]
          have : ¬ i < b.buffered := by simp at ht2; omega
          simp [this]
        have h0 : fib95 0 0#64 = some 0#64 := by decide
        simp only [List.sum_nil] at ht2
        rw [hw0, h0, sbind]
        unfold drop12
        rw [if_pos (by omega), if_pos (by omega)]
        refine ⟨_, rfl, ?_⟩
        have := hl.val
        simp only [vals, sumW, List.foldr_nil] at this
        exact this
      | cons len r =>
        have hlen := e5 len r rfl
        simp only [List.sum_cons] at ht2
        have h16 : 16 ≤ b.buffered := by omega
        have h93 := hl.le len (by simp)
        rw [fib95_eq (p := 0) hl.codes.1 (by omega) (fun i h1 h2 => by
          rw [h.bits i (by omega)]
          have : i < b.buffered := by omega
          simp [this]), sbind]
        unfold drop12
        obtain ⟨b', d1, d2, d3⟩ := pdrop h (k := 12) (by omega) (by omega)
        rw [if_neg (by omega), d1, sbind]
        refine ⟨_, rfl, q + 12, by omega, d2, ?_⟩
        rw [show min (len - 1) 12 = 12 by omega]
        have hv := hl.val
        rw [vals, sumW_cons] at hv
        exact chunk (i := 0) hl.codes (by simp only [List.sum_cons]; omega) (fun l hl' => hl.le l (by simp [hl'])) (by omega) (by omega)
          (by rw [fsum_zero]; exact hv)

theorem later_eq {m : Mem} {q E btd i : Nat} {b : Buf} {v tgt : Word} (h : PInv m q E b btd) (hb : b.buffered = 64 ∨ btd = 0)
    (hi : i ≠ 0) (hm : Mid m q E i v tgt) : ∃ r, later i b v = some r ∧ RoundOk m q E btd tgt r := by
  unfold Mid at hm
  rw [if_neg hi] at hm
  obtain ⟨len, ls, hc, ht, hl, h93, hv⟩ := hm
  have h2 := hc.1.two
  have ht0 := h.tot
  simp only [List.sum_cons] at ht
  have hw : ∀ j, j < len → j < 13 → b.w.getLsbD j = bitAt m (q + j) := by
    intro j h1 h2
    rw [h.bits j (by omega)]
    have : j < b.buffered := by omega
    simp [this]
  unfold later
  rw [fib95_eq hc.1 h93 (fun j h1 h2 => hw j h1 (by omega)), sbind]
  by_cases c : len ≤ 13
  · rw [shift_short hc.1 c (fun j hj => hw j hj (by omega)), sbind, if_pos (by omega)]
    obtain ⟨b', d1, d2, d3⟩ := pdrop h (k := len) (by omega) (by omega)
    rw [d1, sbind]
    refine ⟨_, rfl, q + len, by omega, d2, ?_⟩
    unfold Mid
    rw [if_pos rfl]
    refine ⟨ls, by simpa only [Nat.add_assoc] using hc.2, by omega, hl, ?_⟩
    rw [show min (len - 1) 12 = len - 1 by omega, BitVec.add_assoc]
    exact hv
  · rw [shift_long hc.1 (by omega) (fun j hj => hw j (by omega) hj), sbind, if_neg (by decide)]
    obtain ⟨b', d1, d2, d3⟩ := pdrop h (k := 12) (by omega) (by omega)
    rw [d1, sbind]
    refine ⟨_, rfl, q + 12, by omega, d2, ?_⟩
    rw [show min (len - 1) 12 = 12 by omega]
    exact chunk hc (by simp only [List.sum_cons]; omega) hl h93 (by omega) hv

theorem sumLoop_eq {m : Mem} {E : Nat} {tgt : Word} (hE : E ≤ 64 * m.length) (f q i : Nat) {b : Buf} {btd : Nat} {v : Word}
    (h : PInv m q E b btd) (hm : Mid m q E i v tgt) (hf : E < q + f) : sumLoop m f i b btd v = some tgt := by
  induction f generalizing q i b btd v with
  | zero => have := h.tot; omega
  | succ f ih =>
    obtain ⟨b1, btd1, e1, e2, e3⟩ := fill_eq hE 64 h (by omega)
    unfold sumLoop
    rw [e1, sbind]
    dsimp only
    have hr : ∃ r, round btd1 i b1 v = some r ∧ RoundOk m q E btd1 tgt r := by
      unfold round
      by_cases c : i = 0
      · rw [if_pos c]
        unfold Mid at hm
        rw [if_pos c] at hm
        obtain ⟨ls, hl⟩ := hm
        obtain ⟨b2, v2, q2, l2, d1, d2, d3, d4, d5⟩ := ones_eq e2 hl
        rw [d1, sbind]
        have := d2.le
        obtain ⟨r, r1, r2⟩ := inner_eq 64 q2 d2 d3 (by omega) (by omega) (by omega)
        refine ⟨r, r1, ?_⟩
        cases r with
        | stop v => exact r2
        | go b3 i3 v3 =>
          obtain ⟨q', a1, a2⟩ := r2
          exact ⟨q', by omega, a2⟩
      · rw [if_neg c]
        exact later_eq e2 e3 c hm
    obtain ⟨r, r1, r2⟩ := hr
    rw [r1, sbind]
    cases r with
    | stop v => rw [r2]; rfl
    | go b2 i2 v2 =>
      obtain ⟨q', a1, a2, a3⟩ := r2
      dsimp only
      by_cases c : 0 < btd1 ∨ 0 < b2.buffered
      · rw [if_pos c]
        exact ih q' i2 a2 a3 (by omega)
      · rw [if_neg c]
        have ht := a2.tot
        unfold Mid at a3
        by_cases ci : i2 = 0
        · rw [if_pos ci] at a3
          obtain ⟨ls, hl⟩ := a3
          have ht2 := hl.tot
          have : ls = [] := by
            cases ls with
            | nil => rfl
            | cons l ls => have := hl.codes.1.two; simp only [List.sum_cons] at ht2; omega
          subst this
          have := hl.val
          simp only [vals, sumW, List.foldr_nil] at this
          rw [← this]; simp
        · rw [if_neg ci] at a3
          obtain ⟨len, ls, hc, ht2, -⟩ := a3
          have := hc.1.two
          simp only [List.sum_cons] at ht2
          omega

theorem min_codes {f : Nat → Bool} {ls : List Nat} (h : Codes f ls) :
    (ls.sum = 2 * ls.length → nsum f ls = ls.length) ∧ (ls.sum = 2 * ls.length + 1 → nsum f ls = ls.length + 1) := by
  induction ls generalizing f with
  | nil => simp [nsum]
  | cons len ls ih =>
    obtain ⟨h1, h2⟩ := h
    have t := h1.two
    have t2 := h2.two
    obtain ⟨i1, i2⟩ := ih h2
    simp only [List.sum_cons, List.length_cons]
    have v2 : len = 2 → fibSum f (len - 1) = 1 := by
      rintro rfl
      have := h1.top
      simp at this
      simp [fibSum, this, fibN, fibPair]
    have v3 : len = 3 → fibSum f (len - 1) = 2 := by
      rintro rfl
      have a := h1.top
      have b := h1.first 0 (by decide)
      simp only [Nat.reduceSub, Nat.zero_add] at a b
      have : f 0 = false := by cases h0 : f 0 with
        | false => rfl
        | true => exact absurd ⟨h0, a⟩ b
      simp [fibSum, this, a, fibN, fibPair]
    unfold nsum
    constructor
    · intro hs
      rw [v2 (by omega), i1 (by omega)]; omega
    · intro hs
      by_cases c : len = 2
      · rw [v2 c, i2 (by omega)]; omega
      · rw [v3 (by omega), i1 (by omega)]; omega

theorem prefixSum_eq {m : Mem} {q : Nat} {ls : List Nat} (hc : Codes (fun i => bitAt m (q + i)) ls) (hm : q + ls.sum ≤ 64 * m.length)
    (h31 : ls.sum < 2 ^ 31) (hl : ∀ l ∈ ls, l ≤ 93) : prefixSum m q ls.length = some (sumW (vals m q ls)) := by
  unfold prefixSum
  by_cases c : ls = []
  · subst c; rfl
  · have hlen : 0 < ls.length := by cases ls with | nil => exact absurd rfl c | cons _ _ => simp
    rw [if_neg (by omega), bitsToDecode_eq hc c hm h31, sbind, sumW_vals]
    obtain ⟨m1, m2⟩ := min_codes hc
    by_cases c1 : ls.sum = 2 * ls.length
    · rw [if_pos c1, m1 c1]; rfl
    · rw [if_neg c1]
      by_cases c2 : ls.sum = 2 * ls.length + 1
      · rw [if_pos c2, m2 c2]; rfl
      · rw [if_neg c2]
        apply sumLoop_eq (E := q + ls.sum) hm _ q
        · exact ⟨by show 0 ≤ 64; decide, by show q + 0 + ls.sum = _; omega, fun i hi => by simp,
            fun _ => ⟨by show q % 64 < 64; omega, by show q + 0 = 64 * (q / 64) + q % 64; omega⟩⟩
        · unfold Mid
          rw [if_pos rfl]
          exact ⟨ls, hc, rfl, hl, by rw [sumW_vals]; simp⟩
        · omega

theorem prefixSum_words {m : Mem} {q : Nat} {ys : List Word} (h : At m q (ys.flatMap fibBits)) (h31 : (ys.flatMap fibBits).length < 2 ^ 31) :
    prefixSum m q ys.length = some (sumW ys) := by
  obtain ⟨h1, h2, h3⟩ := codes_words h
  have := prefixSum_eq h1 (by rw [h3]; exact h.1) (by rw [h3]; exact h31) (by
    intro l hl
    rw [List.mem_map] at hl
    obtain ⟨w, _, rfl⟩ := hl
    exact length_le w)
  rwa [h2, List.length_map] at this

end Sdsl.Fib
