/-
  Lemmas on `bit_vector_il`.
-/
import Verif.Il
import Verif.RankLemmas

namespace Sdsl.Il
open Bits Spec IntVec Util

/-- Positions holding the bit `tb`. -/
abbrev F (tb : Bool) (m : Mem) : Nat → Bool := fun q => bitAt m q == tb

theorem view_bit {tb : Bool} {m : Mem} {i j : Nat} (hi : i < m.length) (hj : j < 64) : (view tb m[i]).getLsbD j = F tb m (64 * i + j) := by
  show _ = (bitAt m (64 * i + j) == tb)
  rw [bitAt_mul_add hj hi]
  unfold view
  cases tb <;> simp [hj]

theorem F_word {tb : Bool} {m : Mem} {i : Nat} (hi : i < m.length) :
    countTrue (F tb m) (64 * (i + 1)) = countTrue (F tb m) (64 * i) + (cnt (view tb m[i])).toNat :=
  countTrue_word (fun _ hj => view_bit hi hj)

theorem F_true (m : Mem) (q : Nat) : countTrue (F true m) q = countTrue (bitAt m) q :=
  countTrue_congr (fun i _ => by simp)

theorem F_false (m : Mem) (q : Nat) : countTrue (F false m) q = q - countTrue (bitAt m) q := by
  rw [← countTrue_not]
  exact countTrue_congr (fun i _ => by simp)

/-- The interleaved layout. -/
structure Layout (sr : Nat) (m : Mem) (blocks sbs : Nat) (d : Mem) : Prop where
  words : ∀ i, i < blocks → d[i + i / sr + 1]? = m[i]?
  samples : ∀ s, s < sbs → d[s * sr + s]? = some (BitVec.ofNat 64 (countTrue (bitAt m) (64 * (s * sr))))

/-! ### Construction -/

theorem st_get {d : Mem} {j : Nat} {w : Word} (h : j < d.length) : ∃ d', st d j w = some d' ∧ d'.length = d.length ∧ d'[j]? = some w ∧
    ∀ i, i ≠ j → d'[i]? = d[i]? :=
  ⟨_, st_of_lt h, by simp, List.getElem?_set_self h, fun i hi => List.getElem?_set_ne (by omega)⟩

theorem buildLoop_ok {sr : Nat} {m : Mem} (hsr : 0 < sr) (n : Nat) : ∀ (i A c : Nat) (d : Mem), i + n ≤ m.length →
    (i + n + sr - 1) / sr ≤ d.length - (i + n) → i + n < d.length →
    i + sr = A * sr + c → 1 ≤ c → c ≤ sr → Layout sr m i A d →
    ∃ j s d' A' c', buildLoop sr m i n c (i + A) (BitVec.ofNat 64 (countTrue (bitAt m) (64 * i))) d = some (j, s, d') ∧ d'.length = d.length ∧
      j = i + n + A' ∧ i + n + sr = A' * sr + c' ∧ 1 ≤ c' ∧ c' ≤ sr ∧ Layout sr m (i + n) A' d' := by
  induction n with
  | zero => intro i A c d _ _ _ h1 h2 h3 h4; exact ⟨_, _, d, A, c, rfl, rfl, rfl, h1, h2, h3, h4⟩
  | succ n ih =>
    intro i A c d hm hd hd' hA h1 h2 hL
    have hi : i < m.length := by omega
    have hsum : BitVec.ofNat 64 (countTrue (bitAt m) (64 * i)) + cnt m[i] = BitVec.ofNat 64 (countTrue (bitAt m) (64 * (i + 1))) := by
      have := F_word (tb := true) hi
      rw [F_true, F_true] at this
      rw [this, BitVec.ofNat_add]
      congr 1
      simp [view]
    -- bound on the number of samples
    have hceil : ∀ A, A * sr < i + (n + 1) → i + (n + 1) + A + 1 ≤ d.length := by
      intro A hA
      have : A + 1 ≤ (i + (n + 1) + sr - 1) / sr := by
        rw [Nat.le_div_iff_mul_le hsr, Nat.add_mul, Nat.one_mul]; omega
      omega
    simp only [buildLoop]
    by_cases hc : c = sr
    · rw [if_pos hc]
      have hiA : i = A * sr := by omega
      have hb := hceil A (by omega)
      obtain ⟨d1, e1, l1, a1, b1⟩ := st_get (d := d) (j := i + A) (w := BitVec.ofNat 64 (countTrue (bitAt m) (64 * i))) (by omega)
      obtain ⟨d2, e2, l2, a2, b2⟩ := st_get (d := d1) (j := i + A + 1) (w := m[i]) (by omega)
      rw [e1, sbind, ld_of_lt hi, sbind, e2, sbind, hsum]
      have hdiv : i / sr = A := by rw [hiA]; exact Nat.mul_div_cancel _ hsr
      have := ih (i + 1) (A + 1) 1 d2 (by omega) (by rw [l2, l1, show i + 1 + n = i + (n + 1) by omega]; exact hd) (by omega)
        (by rw [Nat.add_mul]; omega) (by omega) (by omega) ⟨?_, ?_⟩
      · rw [show i + A + 2 = i + 1 + (A + 1) by omega, show i + (n + 1) = i + 1 + n by omega, ← l1, ← l2]
        exact this
      · intro k hk
        by_cases hki : k = i
        · subst hki
          rw [hdiv, a2, List.getElem?_eq_getElem hi]
        · have hlt : k / sr < A := by rw [Nat.div_lt_iff_lt_mul hsr]; omega
          rw [b2 _ (by omega), b1 _ (by omega)]
          exact hL.words k (by omega)
      · intro s hs
        by_cases hsA : s = A
        · subst hsA
          rw [b2 _ (by omega), ← hiA, a1]
        · have hle : s * sr ≤ A * sr := Nat.mul_le_mul_right _ (by omega)
          rw [b2 _ (by omega), b1 _ (by omega)]
          exact hL.samples s (by omega)
    · rw [if_neg hc]
      have hA1 : 1 ≤ A := by
        rcases Nat.eq_zero_or_pos A with h | h
        · subst h; omega
        · exact h
      obtain ⟨B, rfl⟩ : ∃ B, A = B + 1 := ⟨A - 1, by omega⟩
      rw [Nat.add_mul, Nat.one_mul] at hA
      have hiB : i = B * sr + c := by omega
      have hb := hceil B (by omega)
      obtain ⟨d1, e1, l1, a1, b1⟩ := st_get (d := d) (j := i + (B + 1)) (w := m[i]) (by omega)
      rw [ld_of_lt hi, sbind, e1, sbind, hsum]
      have hdiv : i / sr = B := by
        rw [hiB, Nat.mul_comm, Nat.mul_add_div hsr, Nat.div_eq_of_lt (by omega), Nat.add_zero]
      have := ih (i + 1) (B + 1) (c + 1) d1 (by omega) (by rw [l1, show i + 1 + n = i + (n + 1) by omega]; exact hd) (by omega)
        (by rw [Nat.add_mul]; omega) (by omega) (by omega) ⟨?_, ?_⟩
      · rw [show i + (B + 1) + 1 = i + 1 + (B + 1) by omega, show i + (n + 1) = i + 1 + n by omega, ← l1]
        exact this
      · intro k hk
        by_cases hki : k = i
        · subst hki
          rw [hdiv, Nat.add_assoc, a1, List.getElem?_eq_getElem hi]
        · have hlt : k / sr < B + 1 := by rw [Nat.div_lt_iff_lt_mul hsr, Nat.add_mul]; omega
          rw [b1 _ (by omega)]
          exact hL.words k (by omega)
      · intro s hs
        have hle : s * sr ≤ B * sr := Nat.mul_le_mul_right _ (by omega)
        rw [b1 _ (by omega)]
        exact hL.samples s hs

/-! ### Rank samples: the binary search tree in heap order -/

/-- The search interval at node `k` of the binary search (node 0 is the root, the children of `k` are `2k+1` and `2k+2`). -/
def node (n : Nat) : Nat → Nat × Nat
  | 0 => (0, n)
  | k + 1 =>
    let p := node n (k / 2)
    let mid := p.1 + (p.2 - p.1) / 2
    if k % 2 = 0 then (p.1, mid) else (mid + 1, p.2)
decreasing_by omega

theorem node_left (n k : Nat) : node n (2 * k + 1) = ((node n k).1, (node n k).1 + ((node n k).2 - (node n k).1) / 2) := by
  rw [node, show 2 * k / 2 = k by omega, if_pos (by omega)]

theorem node_right (n k : Nat) : node n (2 * k + 2) = ((node n k).1 + ((node n k).2 - (node n k).1) / 2 + 1, (node n k).2) := by
  rw [node, show (2 * k + 1) / 2 = k by omega, if_neg (by omega)]

/-- Nodes on level `l` are intervals of length about `n/2^l`. -/
theorem node_len (n : Nat) (l : Nat) : ∀ k, 2 ^ l ≤ k + 1 → k + 1 < 2 ^ (l + 1) → 1 ≤ (n + 1) / 2 ^ l →
    (node n k).2 ≤ n ∧ (node n k).1 ≤ (node n k).2 ∧ (n + 1) / 2 ^ l ≤ (node n k).2 - (node n k).1 + 1 := by
  induction l with
  | zero =>
    intro k h1 h2 _
    have : k = 0 := by omega
    subst this
    rw [node]
    simp
  | succ l ih =>
    intro k h1 h2 h3
    have hk : 1 ≤ k := by
      rw [Nat.pow_succ] at h1
      have := Nat.one_le_two_pow (n := l)
      omega
    have hdiv : (n + 1) / 2 ^ (l + 1) = (n + 1) / 2 ^ l / 2 := by rw [Nat.pow_succ, Nat.div_div_eq_div_mul]
    rw [hdiv] at h3 ⊢
    rw [Nat.pow_succ] at h1 h2
    have hp := ih ((k - 1) / 2) (by omega) (by omega) (by omega)
    generalize hpk : (k - 1) / 2 = p at hp
    by_cases hodd : k % 2 = 1
    · rw [show k = 2 * p + 1 by omega, node_left]
      simp only
      omega
    · rw [show k = 2 * p + 2 by omega, node_right]
      simp only
      omega

theorem node_leftmost (n : Nat) (l : Nat) : node n (2 ^ l - 1) = (0, n / 2 ^ l) := by
  induction l with
  | zero => rw [show 2 ^ 0 - 1 = 0 from rfl, node]; simp
  | succ l ih =>
    have := Nat.one_le_two_pow (n := l)
    rw [show 2 ^ (l + 1) - 1 = 2 * (2 ^ l - 1) + 1 by rw [Nat.pow_succ]; omega, node_left, ih]
    simp [Nat.pow_succ, Nat.div_div_eq_div_mul]

/-- All nodes up to the number of samples are non-empty intervals. -/
theorem node_valid {n d k : Nat} (hd : 2 ^ d ≤ n) (hk : k < 2 ^ d) : (node n k).1 < (node n k).2 ∧ (node n k).2 ≤ n := by
  rcases Nat.lt_or_ge (k + 1) (2 ^ d) with h | h
  · -- level l < d
    have hl : 2 ^ (k + 1).log2 ≤ k + 1 := Nat.log2_self_le (by omega)
    have hl2 : k + 1 < 2 ^ ((k + 1).log2 + 1) := Nat.lt_log2_self
    have hld : (k + 1).log2 < d := (Nat.log2_lt (by omega)).2 h
    generalize (k + 1).log2 = l at *
    have h2 : 2 ≤ (n + 1) / 2 ^ l := by
      rw [Nat.le_div_iff_mul_le (Nat.two_pow_pos l)]
      have : 2 ^ (l + 1) ≤ 2 ^ d := Nat.pow_le_pow_right (by omega) (by omega)
      rw [Nat.pow_succ] at this; omega
    have := node_len n l k hl hl2 (by omega)
    omega
  · have : k = 2 ^ d - 1 := by omega
    rw [this, node_leftmost]
    simp only
    have : 1 ≤ n / 2 ^ d := by rw [Nat.le_div_iff_mul_le (Nat.two_pow_pos d)]; omega
    exact ⟨by omega, Nat.div_le_self _ _⟩

/-- Middle of the interval. -/
def nodeMid (n k : Nat) : Nat := (node n k).1 + ((node n k).2 - (node n k).1) / 2

theorem samplesLoop_drain {sr : Nat} {d : Mem} {s : Mem} : ∀ (q : List (Nat × Nat)) (f idx : Nat), s.length ≤ idx → q.length ≤ f →
    samplesLoop sr d f idx q s = some s
  | [], f, idx, _, _ => by cases f <;> rfl
  | (lb, rb) :: q, 0, idx, _, h => by simp at h
  | (lb, rb) :: q, f + 1, idx, h1, h2 => by
    simp only [samplesLoop]
    rw [if_neg (by omega)]
    exact samplesLoop_drain q f idx h1 (by simpa using h2)

theorem samplesLoop_ok {sr n : Nat} {d : Mem} (r : Nat) : ∀ (k : Nat) (s : Mem) (f : Nat), k + r = s.length → 2 * r + k + 1 ≤ f →
    (∀ i, i < s.length → nodeMid n i * sr + nodeMid n i < d.length) →
    (∀ i, i < k → s[i]? = d[nodeMid n i * sr + nodeMid n i]?) →
    ∃ s', samplesLoop sr d f k ((List.range (k + 1)).map (fun i => node n (k + i))) s = some s' ∧ s'.length = s.length ∧
      ∀ i, i < s.length → s'[i]? = d[nodeMid n i * sr + nodeMid n i]? := by
  induction r with
  | zero =>
    intro k s f h1 h2 h3 h4
    exact ⟨s, samplesLoop_drain _ _ _ (by omega) (by simp; omega), rfl, fun i hi => h4 i (by omega)⟩
  | succ r ih =>
    intro k s f h1 h2 h3 h4
    obtain ⟨g, rfl⟩ : ∃ g, f = g + 1 := ⟨f - 1, by omega⟩
    rw [List.range_succ_eq_map, List.map_cons, List.map_map]
    have hq : node n (k + 0) = ((node n k).1, (node n k).2) := rfl
    rw [hq]
    simp only [samplesLoop]
    rw [if_pos (by omega)]
    have hm := h3 k (by omega)
    have hm' : ((node n k).1 + ((node n k).2 - (node n k).1) / 2) = nodeMid n k := rfl
    rw [hm', ld_of_lt hm, sbind, st_of_lt (by omega), sbind]
    have hlist : List.map ((fun i => node n (k + i)) ∘ Nat.succ) (List.range k) ++ [((node n k).1, nodeMid n k), (nodeMid n k + 1, (node n k).2)] =
        (List.range (k + 1 + 1)).map (fun i => node n (k + 1 + i)) := by
      rw [List.range_succ, List.range_succ, List.map_append, List.map_append]
      simp only [List.map_cons, List.map_nil, List.append_assoc, List.cons_append, List.nil_append]
      rw [show k + 1 + k = 2 * k + 1 by omega, show k + 1 + (k + 1) = 2 * k + 2 by omega, node_left, node_right]
      congr 1
      apply List.map_congr_left
      intro i _
      simp only [Function.comp, Nat.succ_eq_add_one]
      congr 1; omega
    rw [hlist]
    obtain ⟨s', e, a, b⟩ := ih (k + 1) (s.set k d[nodeMid n k * sr + nodeMid n k]) g (by simp; omega) (by omega)
      (by simpa using h3) (by
        intro i hi
        by_cases hik : i = k
        · subst hik
          rw [List.getElem?_set_self (by omega), List.getElem?_eq_getElem hm]
        · rw [List.getElem?_set_ne (by omega)]
          exact h4 i (by omega))
    exact ⟨s', e, by simpa using a, by simpa using b⟩

/-- A correctly built vector. -/
structure Ok (sr : Nat) (v : IntVec) (b : Il) : Prop where
  size : b.size = v.size
  sbs : b.superblocks = v.size / (64 * sr) + 1
  lay : Layout sr v.data (v.size / 64 + 1) b.superblocks b.data
  samples : ∀ i, i < b.samples.length → (node b.superblocks i).1 < (node b.superblocks i).2 ∧ (node b.superblocks i).2 ≤ b.superblocks ∧
    b.samples[i]? = b.data[nodeMid b.superblocks i * sr + nodeMid b.superblocks i]?

theorem build_ok {sr : Nat} {v : IntVec} (hsr : 0 < sr) (hv : v.size / 64 < v.data.length) (hs : v.size / (64 * sr) + 1 < 2 ^ 64) :
    ∃ b, build sr v = some b ∧ Ok sr v b := by
  unfold build
  have hbs : 0 < 64 * sr := by omega
  have hsb : (v.size + 64 * sr) / (64 * sr) = v.size / (64 * sr) + 1 := Nat.add_div_right _ hbs
  have hdd : v.size / (64 * sr) = v.size / 64 / sr := (Nat.div_div_eq_div_mul _ _ _).symm
  dsimp only
  rw [hsb, Nat.add_div_right _ (by omega : 0 < 64)]
  generalize hB : v.size / 64 = B at *
  generalize hS : v.size / (64 * sr) = S at *
  have hceil : (B + 1 + sr - 1) / sr = S + 1 := by rw [show B + 1 + sr - 1 = B + sr by omega, Nat.add_div_right _ hsr, ← hdd]
  obtain ⟨j, s, d', A', c', e, hl, hj, hA, hc1, hc2, hL⟩ := buildLoop_ok (m := v.data) hsr (B + 1) 0 0 sr
    (List.replicate (B + 1 + (S + 1) + 1) 0#64)
    (by omega) (by rw [Nat.zero_add, hceil]; simp; omega) (by simp; omega) (by omega) (by omega) (by omega)
    ⟨fun i hi => by omega, fun s hs => by omega⟩
  rw [Nat.zero_add] at hj hA hL
  have hz : BitVec.ofNat 64 (countTrue (bitAt v.data) (64 * 0)) = 0#64 := rfl
  rw [hz] at e
  rw [e, sbind]
  simp only [List.length_replicate] at hl
  have hAS : A' = S + 1 := by
    rw [← hceil]
    have e1 : B + 1 + sr - 1 = c' - 1 + sr * A' := by rw [Nat.mul_comm]; omega
    rw [e1, Nat.add_mul_div_left _ _ hsr, Nat.div_eq_of_lt (by omega)]; omega
  obtain ⟨d, ed, dl, da, db⟩ := st_get (d := d') (j := j) (w := s) (by omega)
  dsimp only
  rw [ed, sbind]
  have hLay : Layout sr v.data (B + 1) (S + 1) d := by
    constructor
    · intro i hi
      have hlt : i / sr < A' := by rw [Nat.div_lt_iff_lt_mul hsr]; omega
      rw [db _ (by omega)]
      exact hL.words i hi
    · intro t ht
      have h1 : t * sr ≤ S * sr := Nat.mul_le_mul_right _ (by omega)
      have h2 : S * sr ≤ B := by rw [hdd]; exact Nat.div_mul_le_self _ _
      rw [db _ (by omega)]
      exact hL.samples t (by omega)
  have hns : ∃ ns, numSamples (B + 1 + (S + 1) + 1) (S + 1) = some ns ∧ (ns = 0 ∨ ∃ e, ns = 2 ^ e ∧ 2 ^ e ≤ S + 1) := by
    unfold numSamples
    split
    · rw [hi_eq, sbind, BitVec.toNat_ofNat, Nat.mod_eq_of_lt hs]
      refine ⟨_, rfl, Or.inr ?_⟩
      have h1 : 2 ^ (S + 1).log2 ≤ S + 1 := Nat.log2_self_le (by omega)
      rcases Nat.le_total 1024 (2 ^ (S + 1).log2) with h | h
      · exact ⟨10, by rw [Nat.min_eq_left h], by omega⟩
      · exact ⟨_, by rw [Nat.min_eq_right h], h1⟩
    · exact ⟨0, rfl, Or.inl rfl⟩
  obtain ⟨ns, ens, hns⟩ := hns
  rw [ens, sbind]
  have hval : ∀ i, i < ns → (node (S + 1) i).1 < (node (S + 1) i).2 ∧ (node (S + 1) i).2 ≤ S + 1 := by
    intro i hi
    rcases hns with h | ⟨e, h1, h2⟩
    · omega
    · exact node_valid h2 (by omega)
  have hdl : ∀ t, t < S + 1 → t * sr + t < d.length := by
    intro t ht
    have h1 : t * sr ≤ S * sr := Nat.mul_le_mul_right _ (by omega)
    have h2 : S * sr ≤ B := by rw [hdd]; exact Nat.div_mul_le_self _ _
    omega
  obtain ⟨s', es, sl, hs'⟩ := samplesLoop_ok (sr := sr) (n := S + 1) (d := d) ns 0 (List.replicate ns 0#64) (2 * ns + 1) (by simp) (by omega)
    (by
      simp only [List.length_replicate]
      intro i hi
      have := hval i hi
      exact hdl _ (by unfold nodeMid; omega)) (by intro i hi; omega)
  have hq : ((List.range (0 + 1)).map (fun i => node (S + 1) (0 + i))) = [(0, S + 1)] := by
    simp [node]
  rw [hq] at es
  rw [es, sbind]
  simp only [List.length_replicate] at sl hs'
  refine ⟨_, rfl, rfl, by simp only; omega, by rw [hB]; exact hLay, ?_⟩
  simp only
  rw [sl]
  intro i hi
  exact ⟨(hval i hi).1, (hval i hi).2, hs' i hi⟩

/-! ### Queries -/

theorem before_eq {tb : Bool} {sr s : Nat} {m : Mem} (h : 64 * (s * sr) < 2 ^ 64) :
    before tb sr s (BitVec.ofNat 64 (countTrue (bitAt m) (64 * (s * sr)))) = countTrue (F tb m) (64 * (s * sr)) := by
  have := countTrue_le (bitAt m) (64 * (s * sr))
  unfold before
  rw [BitVec.toNat_ofNat, Nat.mod_eq_of_lt (by omega)]
  cases tb
  · rw [if_neg (by simp), F_false]
    congr 1
    rw [← Nat.mul_assoc, ← Nat.mul_assoc, Nat.mul_comm s 64]
  · rw [if_pos rfl, F_true]

theorem Ok.word {sr : Nat} {v : IntVec} {b : Il} (h : Ok sr v b) {s k : Nat} (hk : k < sr) (hw : s * sr + k < v.size / 64 + 1)
    (hl : s * sr + k < v.data.length) : ld b.data (s * sr + s + 1 + k) = some v.data[s * sr + k] := by
  have := h.lay.words (s * sr + k) hw
  rw [Nat.mul_comm s sr, Nat.mul_add_div (by omega), Nat.div_eq_of_lt hk, Nat.mul_comm sr s] at this
  simp only [Nat.add_zero] at this
  unfold ld
  rw [show s * sr + s + 1 + k = s * sr + k + s + 1 by omega, this, List.getElem?_eq_getElem hl]

theorem Ok.sample {sr : Nat} {v : IntVec} {b : Il} (h : Ok sr v b) {s : Nat} (hs : s < b.superblocks) :
    ld b.data (s * sr + s) = some (BitVec.ofNat 64 (countTrue (bitAt v.data) (64 * (s * sr)))) := h.lay.samples s hs

theorem div_bs (i sr : Nat) : i / (64 * sr) = i / 64 / sr := (Nat.div_div_eq_div_mul _ _ _).symm

theorem split_bs (i sr : Nat) : i / 64 = i / 64 / sr * sr + i / 64 % sr := by
  rw [Nat.mul_comm]; exact (Nat.div_add_mod _ _).symm

theorem Ok.word' {sr : Nat} {v : IntVec} {b : Il} (h : Ok sr v b) {i : Nat} (hi : i ≤ v.size)
    (hl : i / 64 < v.data.length) : ld b.data (i / (64 * sr) + i / 64 + 1) = some v.data[i / 64] := by
  have := h.lay.words (i / 64) (by omega)
  unfold ld
  rw [div_bs, Nat.add_comm (i / 64 / sr), this, List.getElem?_eq_getElem hl]

theorem access_ok {sr : Nat} {v : IntVec} {b : Il} (h : Ok sr v b) (hv : v.size / 64 < v.data.length) {i : Nat} (hi : i < v.size) :
    access sr b i = some (BitVec.ofNat 64 (bitAt v.data i).toNat) := by
  have hl : i / 64 < v.data.length := by omega
  unfold access
  rw [h.word' (by omega) hl, sbind, shr_of_lt (by omega), sbind, bitAt_of_lt hl]
  show some _ = some _
  congr 1
  apply BitVec.eq_of_getLsbD_eq
  intro j hj
  rw [BitVec.getLsbD_and, BitVec.getLsbD_ushiftRight]
  cases j with
  | zero => simp only [Nat.add_zero]; cases v.data[i / 64].getLsbD (i % 64) <;> rfl
  | succ j => cases v.data[i / 64].getLsbD (i % 64) <;> simp

theorem getInt_ok {sr : Nat} {v : IntVec} {b : Il} (h : Ok sr v b) (hv : v.size / 64 < v.data.length) {idx len : Nat} (h1 : 1 ≤ len)
    (h64 : len ≤ 64) (hi : idx + len ≤ v.size) : getInt sr b idx len = some (BitVec.ofNat 64 (field v.data idx len)) := by
  have hl1 : idx / 64 < v.data.length := by omega
  have hl2 : (idx + len - 1) / 64 < v.data.length := by omega
  have hmono : idx / (64 * sr) ≤ (idx + len - 1) / (64 * sr) := Nat.div_le_div_right (by omega)
  unfold getInt
  dsimp only
  rw [h.word' (by omega) hl1, sbind, sbind]
  have hbit : ∀ j, j < len → bitAt v.data (idx + j) = (BitVec.ofNat 64 (field v.data idx len)).getLsbD j := by
    intro j hj
    rw [BitVec.getLsbD_ofNat]
    unfold field
    rw [testBit_bitsVal]
    simp [hj]; omega
  have hbit' : ∀ j, len ≤ j → (BitVec.ofNat 64 (field v.data idx len)).getLsbD j = false := by
    intro j hj
    rw [BitVec.getLsbD_ofNat]
    unfold field
    rw [testBit_bitsVal]
    simp; omega
  by_cases hb : idx / (64 * sr) + idx / 64 + 1 = (idx + len - 1) / (64 * sr) + (idx + len - 1) / 64 + 1
  · rw [if_pos hb, shr_of_lt (by omega), sbind, loSet_eq h64, sbind]
    show some _ = some _
    congr 1
    apply BitVec.eq_of_getLsbD_eq
    intro j hj
    rw [BitVec.getLsbD_and, BitVec.getLsbD_ushiftRight, getLsbD_ones]
    by_cases hjl : j < len
    · rw [← hbit j hjl, show idx + j = 64 * (idx / 64) + (idx % 64 + j) by omega, bitAt_mul_add (by omega) hl1]
      simp [hj, hjl]
    · rw [hbit' j (by omega)]
      simp [hjl]
  · rw [if_neg hb]
    have hne : idx / 64 ≠ (idx + len - 1) / 64 := by
      intro he
      apply hb
      rw [div_bs, div_bs, he]
    have hnext : (idx + len - 1) / 64 = idx / 64 + 1 := by omega
    have hl3 : idx / 64 + 1 < v.data.length := by omega
    rw [shr_of_lt (by omega), sbind, h.word' (by omega) hl2, sbind, loSet_eq (by omega), sbind, shl_of_lt (by omega), sbind]
    show some _ = some _
    congr 1
    apply BitVec.eq_of_getLsbD_eq
    intro j hj
    rw [BitVec.getLsbD_or, BitVec.getLsbD_ushiftRight, BitVec.getLsbD_shiftLeft, BitVec.getLsbD_and, getLsbD_ones]
    simp only [hnext]
    by_cases hjb : j < 64 - idx % 64
    · have hjl : j < len := by omega
      rw [← hbit j hjl, show idx + j = 64 * (idx / 64) + (idx % 64 + j) by omega, bitAt_mul_add (by omega) hl1]
      simp [hjb]
    · rw [BitVec.getLsbD_of_ge v.data[idx / 64] (idx % 64 + j) (by omega)]
      by_cases hjl : j < len
      · rw [← hbit j hjl, show idx + j = 64 * (idx / 64 + 1) + (j - (64 - idx % 64)) by omega, bitAt_mul_add (by omega) hl3]
        have h3 : j - (64 - idx % 64) < 64 := by omega
        have h4 : j - (64 - idx % 64) < len - (64 - idx % 64) := by omega
        simp [hj, hjb, h3, h4]
      · rw [hbit' j (by omega)]
        have h4 : ¬ j - (64 - idx % 64) < len - (64 - idx % 64) := by omega
        simp [h4]

theorem rankLoop_ok {tb : Bool} {m d : Mem} (n : Nat) : ∀ (p w r : Nat), w + n ≤ m.length → (∀ t, t < n → ld d (p + t) = m[w + t]?) →
    rankLoop tb d n p (r + countTrue (F tb m) (64 * w)) = some (p + n, r + countTrue (F tb m) (64 * (w + n))) := by
  induction n with
  | zero => intro p w r _ _; rfl
  | succ n ih =>
    intro p w r h1 h2
    have hw : w < m.length := by omega
    simp only [rankLoop]
    have := h2 0 (by omega)
    rw [Nat.add_zero, Nat.add_zero, List.getElem?_eq_getElem hw] at this
    rw [this, sbind, Nat.add_assoc, ← F_word hw, ih (p + 1) (w + 1) r (by omega) (fun t ht => by
      rw [show p + 1 + t = p + (t + 1) by omega, h2 (t + 1) (by omega)]; congr 1; omega)]
    rw [show p + 1 + n = p + (n + 1) by omega, show w + 1 + n = w + (n + 1) by omega]

theorem rank_ok {tb : Bool} {sr : Nat} {v : IntVec} {b : Il} (hsr : 0 < sr) (h : Ok sr v b) (hv : v.size / 64 < v.data.length)
    (hs : v.size < 2 ^ 64) {i : Nat} (hi : i ≤ v.size) : rank tb sr b i = some (countTrue (F tb v.data) i) := by
  have hl : i / 64 < v.data.length := by omega
  have hsp := split_bs i sr
  have hmod : i / 64 % sr < sr := Nat.mod_lt _ hsr
  have hsb : i / 64 / sr < b.superblocks := by
    rw [h.sbs, div_bs]
    have : i / 64 / sr ≤ v.size / 64 / sr := Nat.div_le_div_right (by omega)
    omega
  unfold rank
  dsimp only
  rw [div_bs]
  generalize hS : i / 64 / sr = S at *
  generalize hK : i / 64 % sr = K at *
  rw [h.sample hsb, sbind, before_eq (by omega)]
  have hn : (i % (64 * sr) - i % 64) / 64 = K := by
    rw [Nat.mod_mul, hK]
    omega
  have := rankLoop_ok (tb := tb) (m := v.data) (d := b.data) K (S * sr + S + 1) (S * sr) 0 (by omega) (by
    intro t ht
    have hlt : S * sr + t < v.data.length := by omega
    rw [h.word (s := S) (k := t) (by omega) (by omega) hlt, List.getElem?_eq_getElem hlt])
  rw [Nat.zero_add, Nat.zero_add] at this
  rw [hn, this, sbind, h.word (s := S) (k := K) hmod (by omega) (by omega), sbind, loSet_eq (by omega), sbind]
  show some _ = some _
  congr 1
  dsimp only
  rw [Props.C01_cnt]
  have hfin : countTrue (F tb v.data) i = countTrue (F tb v.data) (64 * (S * sr + K)) + countTrue (fun j => F tb v.data (64 * (S * sr + K) + j)) (i % 64) := by
    rw [← countTrue_add]; congr 1; omega
  rw [hfin]
  refine congrArg (fun k => countTrue (F tb v.data) (64 * (S * sr + K)) + k) ?_
  rw [← Rank.countTrue_masked (fun j => F tb v.data (64 * (S * sr + K) + j)) (i % 64) 64 (by omega)]
  refine countTrue_congr (fun j hj => ?_)
  rw [BitVec.getLsbD_and, view_bit (by omega) hj, getLsbD_ones]
  simp [hj]

theorem selSearch_ok {tb : Bool} {sr : Nat} {v : IntVec} {b : Il} (h : Ok sr v b) (hs : 64 * (b.superblocks * sr) < 2 ^ 64)
    {i : Nat} (f : Nat) : ∀ (lb rb idx : Nat), lb ≤ rb → rb ≤ b.superblocks → rb - lb < f →
    (idx < b.samples.length → node b.superblocks idx = (lb, rb)) →
    (lb = 0 ∨ countTrue (F tb v.data) (64 * ((lb - 1) * sr)) < i) →
    (rb = b.superblocks ∨ i ≤ countTrue (F tb v.data) (64 * (rb * sr))) →
    ∃ r, selSearch tb sr b i f lb rb idx = some r ∧ r ≤ b.superblocks ∧
      (r = 0 ∨ countTrue (F tb v.data) (64 * ((r - 1) * sr)) < i) ∧ (r = b.superblocks ∨ i ≤ countTrue (F tb v.data) (64 * (r * sr))) := by
  induction f with
  | zero => intro lb rb idx _ _ h; omega
  | succ f ih =>
    intro lb rb idx h1 h2 h3 hnode hlo hhi
    simp only [selSearch]
    by_cases hlt : lb < rb
    · rw [if_pos hlt]
      have hmid : (lb + rb) / 2 < b.superblocks := by omega
      have hpos : 64 * ((lb + rb) / 2 * sr) < 2 ^ 64 := by
        have : (lb + rb) / 2 * sr ≤ b.superblocks * sr := Nat.mul_le_mul_right _ (by omega)
        omega
      by_cases hidx : idx < b.samples.length
      · rw [if_pos hidx]
        have hn := hnode hidx
        have hnm : nodeMid b.superblocks idx = (lb + rb) / 2 := by
          unfold nodeMid; rw [hn]; simp only; omega
        have hsam := (h.samples idx hidx).2.2
        rw [hnm] at hsam
        have hsam' := hsam.trans (h.sample hmid)
        unfold ld
        rw [hsam', sbind, before_eq hpos]
        by_cases hc : countTrue (F tb v.data) (64 * ((lb + rb) / 2 * sr)) ≥ i
        · rw [if_pos hc]
          refine ih _ _ _ (by omega) (by omega) (by omega) (fun _ => ?_) hlo (Or.inr hc)
          rw [node_left, hn]; simp only; congr 1; omega
        · rw [if_neg hc]
          refine ih _ _ _ (by omega) (by omega) (by omega) (fun _ => ?_) (Or.inr ?_) hhi
          · rw [node_right, hn]; simp only; congr 1; omega
          · rw [Nat.add_sub_cancel]; omega
      · rw [if_neg hidx, h.sample hmid, sbind, before_eq hpos]
        by_cases hc : countTrue (F tb v.data) (64 * ((lb + rb) / 2 * sr)) ≥ i
        · rw [if_pos hc]
          exact ih _ _ _ (by omega) (by omega) (by omega) (fun h => absurd h hidx) hlo (Or.inr hc)
        · rw [if_neg hc]
          refine ih _ _ _ (by omega) (by omega) (by omega) (fun h => absurd h hidx) (Or.inr ?_) hhi
          rw [Nat.add_sub_cancel]; omega
    · rw [if_neg hlt]
      have : lb = rb := by omega
      subst this
      exact ⟨lb, rfl, h2, hlo, hhi⟩

theorem selScan_ok {tb : Bool} {m d : Mem} {p : Nat} (hp : F tb m p = true) (hpl : p / 64 < m.length) (f : Nat) : ∀ (q w i : Nat), 1 ≤ i →
    countTrue (F tb m) p + 1 = countTrue (F tb m) (64 * w) + i → w ≤ p / 64 → p / 64 < w + f →
    (∀ t, w + t ≤ p / 64 → ld d (q + t) = m[w + t]?) → selScan tb d f q i (64 * w) = some p := by
  induction f with
  | zero => intro q w i _ _ _ h; omega
  | succ f ih =>
    intro q w i h1 h2 h3 h4 h5
    have hw : w < m.length := by omega
    simp only [selScan]
    have := h5 0 (by omega)
    rw [Nat.add_zero, Nat.add_zero, List.getElem?_eq_getElem hw] at this
    rw [this, sbind]
    have hF := F_word (tb := tb) hw
    by_cases hc : (cnt (view tb m[w])).toNat < i
    · rw [if_pos hc]
      have hlt : w < p / 64 := by
        rcases Nat.lt_or_ge w (p / 64) with h | h
        · exact h
        · have := countTrue_lt_of_true (show p < 64 * (w + 1) by omega) hp
          omega
      exact ih (q + 1) (w + 1) _ (by omega) (by omega) (by omega) (by omega) (fun t ht => by
        rw [show q + 1 + t = q + (t + 1) by omega, h5 (t + 1) (by omega)]; congr 1; omega)
    · rw [if_neg hc]
      rw [Props.C01_cnt] at hc
      obtain ⟨r, e, hr1, hr2, hr3⟩ := sel_eq h1 (Nat.le_of_not_lt hc)
      rw [e, sbind]
      show some _ = some _
      congr 1
      have hr2 : (view tb m[w]).getLsbD r = true := hr2
      rw [view_bit hw hr1] at hr2
      rw [countTrue_congr (g := fun j => F tb m (64 * w + j)) (fun j hj => view_bit hw (by omega))] at hr3
      have hsum := countTrue_add (F tb m) (64 * w) r
      exact IsSelect.unique (f := F tb m) (n := 64 * w + r + p + 1) (i := countTrue (F tb m) p + 1) ⟨by omega, hr2, by omega⟩ ⟨by omega, hp, rfl⟩

theorem select_ok {tb : Bool} {sr : Nat} {v : IntVec} {b : Il} (hsr : 0 < sr) (h : Ok sr v b) (hv : v.size / 64 < v.data.length)
    (hs : v.size + 64 * sr < 2 ^ 64) {i : Nat} (h1 : 1 ≤ i) (h2 : i ≤ countTrue (F tb v.data) v.size) :
    ∃ p, select tb sr b i = some p ∧ IsSelect (F tb v.data) v.size i p := by
  obtain ⟨p, hp⟩ := IsSelect.exists h1 h2
  refine ⟨p, ?_, hp⟩
  obtain ⟨hp1, hp2, hp3⟩ := hp
  have hbsz : 64 * (b.superblocks * sr) < 2 ^ 64 := by
    rw [h.sbs, Nat.add_mul, div_bs]
    have := Nat.div_mul_le_self (v.size / 64) sr
    omega
  have hsb1 : 1 ≤ b.superblocks := by rw [h.sbs]; exact Nat.le_add_left 1 _
  obtain ⟨r, e, hr1, hr2, hr3⟩ := selSearch_ok (tb := tb) (i := i) h hbsz (b.superblocks + 1) 0 b.superblocks 0 (by omega) (by omega) (by omega)
    (fun _ => by rw [node]) (Or.inl rfl) (Or.inl rfl)
  unfold select
  rw [e, sbind]
  have hr0 : r ≠ 0 := by
    rintro rfl
    rcases hr3 with h3 | h3
    · omega
    · rw [Nat.zero_mul] at h3
      have : countTrue (F tb v.data) (64 * 0) = 0 := rfl
      omega
  rw [if_neg hr0]
  have hr2 : countTrue (F tb v.data) (64 * ((r - 1) * sr)) < i := hr2.resolve_left hr0
  obtain ⟨s, rfl⟩ : ∃ s, r = s + 1 := ⟨r - 1, by omega⟩
  rw [Nat.add_sub_cancel] at hr2 ⊢
  have hposs : 64 * (s * sr) < 2 ^ 64 := by
    have : s * sr ≤ b.superblocks * sr := Nat.mul_le_mul_right _ (by omega)
    omega
  dsimp only
  rw [h.sample (by omega), sbind, before_eq hposs]
  -- the occurrence lies in superblock s
  have hlo : s * sr ≤ p / 64 := by
    rcases Nat.lt_or_ge p (64 * (s * sr)) with h3 | h3
    · have := countTrue_lt_of_true h3 hp2
      omega
    · omega
  have hup : p / 64 < s * sr + sr := by
    rcases hr3 with h3 | h3
    · have hq : v.size / 64 / sr = s := by rw [← div_bs]; have := h.sbs; omega
      have hsp := split_bs v.size sr
      have := Nat.mod_lt (v.size / 64) hsr
      rw [hq] at hsp
      omega
    · rcases Nat.lt_or_ge p (64 * ((s + 1) * sr)) with h4 | h4
      · rw [Nat.add_mul, Nat.one_mul] at h4; omega
      · have : countTrue (F tb v.data) (64 * ((s + 1) * sr)) ≤ countTrue (F tb v.data) p := countTrue_mono _ h4
        omega
  have hlen : v.size / 64 + 1 < b.data.length := by
    have h3 := h.lay.words (v.size / 64) (by omega)
    rw [List.getElem?_eq_getElem hv] at h3
    obtain ⟨h4, _⟩ := List.getElem?_eq_some_iff.1 h3
    have : 0 ≤ v.size / 64 / sr := Nat.zero_le _
    generalize v.size / 64 / sr = z at *
    omega
  rw [show s * (64 * sr) = 64 * (s * sr) by rw [← Nat.mul_assoc, ← Nat.mul_assoc, Nat.mul_comm s 64]]
  refine selScan_ok hp2 (by omega) _ _ _ _ (by omega) (by omega) hlo (by omega) (fun t ht => ?_)
  have hlt : s * sr + t < v.data.length := by omega
  rw [h.word (s := s) (k := t) (by omega) (by omega) hlt, List.getElem?_eq_getElem hlt]

end Sdsl.Il
