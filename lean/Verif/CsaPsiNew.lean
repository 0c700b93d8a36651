/-
  The constructors of `csa_sada` and `csa_bitcompressed`: Psi from the BWT, its encoding, and the objects.
-/
import Verif.CsaPsiLemmas

namespace Sdsl.Csa

open CstSct3 Spec
open Fib (zeck_lt zeck_stable zeck_spec)

theorem cntLoop_ok {A : Alpha} {cv : Nat → Nat} {sg : Nat} (hC : ∀ t, t < sg → A.C t = some (cv t)) : ∀ (k i : Nat) (a : Arr), i + k = sg → a.xs.length = sg → (∀ t, t < sg → cv t < 2 ^ a.width) →
    ∃ b, cntLoop A k i a = some b ∧ b.xs.length = sg ∧ b.width = a.width ∧ ∀ t, t < sg → b.get t = if i ≤ t then some (cv t) else a.get t
  | 0, i, a, h1, h2, _ => ⟨a, rfl, h2, rfl, fun t ht => by rw [if_neg (by omega)]⟩
  | k + 1, i, a, h1, h2, h3 => by
    obtain ⟨b, b1, b2, b3, b4⟩ := set_spec (a := a) (i := i) (by omega) (h3 i (by omega))
    obtain ⟨d, d1, d2, d3, d4⟩ := cntLoop_ok hC k (i + 1) b (by omega) (by omega) (by rw [b3]; exact h3)
    refine ⟨d, by rw [cntLoop, hC i (by omega), sbind, b1, sbind, d1], d2, by omega, fun t ht => ?_⟩
    rw [d4 t ht, b4]
    by_cases e : t = i
    · subst e; rw [if_neg (by omega), if_pos rfl, if_pos (Nat.le_refl _)]
    · rw [if_neg e]
      by_cases e2 : i ≤ t
      · rw [if_pos (by omega), if_pos e2]
      · rw [if_neg (by omega), if_neg e2]

/-- LF as a function of the row. -/
def lfOf (T SA : List Nat) (i : Nat) : Nat := smaller T (sym (bwtOf T SA) i) + ((bwtOf T SA).take i).count (sym (bwtOf T SA) i)

theorem lfOf_ok {T SA : List Nat} (hT : IsText T) (hS : IsSA T SA) {i : Nat} (hi : i < T.length) : lfOf T SA i < T.length ∧ sym SA (lfOf T SA i) = prv T.length (sym SA i) := IsSA.lf hT hS hi _ rfl

theorem lfOf_inj {T SA : List Nat} (hT : IsText T) (hS : IsSA T SA) {i j : Nat} (hi : i < T.length) (hj : j < T.length) (h : lfOf T SA i = lfOf T SA j) : i = j := by
  obtain ⟨-, a⟩ := lfOf_ok hT hS hi
  obtain ⟨-, b⟩ := lfOf_ok hT hS hj
  rw [h, b] at a
  have h1 := nxt_prv (hS.sym_get_lt hi)
  have h2 := nxt_prv (hS.sym_get_lt hj)
  rw [← a, h2] at h1
  exact hS.inj hi hj h1.symm

theorem psiLoop_ok {A : Alpha} {T SA : List Nat} {Q : Nat → Prop} (hT : IsText T) (hS : IsSA T SA) (hA : AlphaOk A (bwtOf T SA) Q) : ∀ (cs : List Nat) (i : Nat) (cnt p : Arr), (bwtOf T SA).drop i = cs → i ≤ T.length →
    cnt.xs.length = A.sigma → T.length < 2 ^ cnt.width → p.xs.length = T.length → T.length < 2 ^ p.width →
    (∀ c ∈ bwtOf T SA, ∀ k, A.char2comp c = some k → cnt.get k = some (smaller T c + ((bwtOf T SA).take i).count c)) → (∀ j, j < i → p.get (lfOf T SA j) = some j) →
    ∃ q, psiLoop A cs i cnt p = some q ∧ q.xs.length = T.length ∧ ∀ j, j < T.length → q.get (lfOf T SA j) = some j := by
  have hbl := hS.bwt_length
  intro cs
  induction cs with
  | nil =>
    intro i cnt p h1 h2 h3 h4 h5 h6 h7 h8
    have : T.length ≤ i := by
      have := congrArg List.length h1
      rw [List.length_drop, List.length_nil] at this
      omega
    exact ⟨p, rfl, h5, fun j hj => h8 j (by omega)⟩
  | cons c cs ih =>
    intro i cnt p h1 h2 h3 h4 h5 h6 h7 h8
    obtain ⟨g1, g2, g3⟩ := drop_eq h1
    have hm : c ∈ bwtOf T SA := by rw [g2]; exact sym_mem g1
    obtain ⟨k, k1, k2, k3, -⟩ := alpha_rows hT hS hA hm
    obtain ⟨l1, l2⟩ := lfOf_ok hT hS (i := i) (by omega)
    have hlf : smaller T c + ((bwtOf T SA).take i).count c = lfOf T SA i := by rw [lfOf, ← g2]
    obtain ⟨b, b1, b2, b3, b4⟩ := set_spec (a := cnt) (i := k) (x := lfOf T SA i + 1) (by omega) (by omega)
    obtain ⟨d, d1, d2, d3, d4⟩ := set_spec (a := p) (i := lfOf T SA i) (x := i) (by omega) (by omega)
    rw [psiLoop, k1, sbind, h7 c hm k k1, sbind, hlf, b1, sbind, d1, sbind]
    refine ih (i + 1) b d g3 (by omega) (by omega) (by rw [b3]; exact h4) (by omega) (by rw [d3]; exact h6) (fun c' hc' k' hk' => ?_) (fun j hj => ?_)
    · rw [b4, count_take_succ g1, ← g2]
      by_cases e : c = c'
      · subst e
        rw [k1] at hk'
        rw [if_pos (Option.some.inj hk').symm, if_pos rfl, ← Nat.add_assoc, hlf]
      · rw [if_neg (by
          intro e2
          obtain ⟨k2, q1, -, q3, -⟩ := alpha_rows hT hS hA hc'
          rw [hk'] at q1
          cases q1
          rw [e2, k3] at q3
          exact e (Option.some.inj q3)), if_neg e, Nat.add_zero, h7 c' hc' k' hk']
    · rw [d4]
      by_cases e : j = i
      · subst e; rw [if_pos rfl]
      · rw [if_neg (fun e2 => e (lfOf_inj hT hS (by omega) (by omega) e2)), h8 j (by omega)]

/-- The array of Psi values. -/
theorem sadaPsi_ok {A : Alpha} {T SA : List Nat} {Q : Nat → Prop} (hT : IsText T) (hS : IsSA T SA) (hA : AlphaOk A (bwtOf T SA) Q) (hn : T.length < 2 ^ 64) :
    ∃ l, sadaPsi A (bwtOf T SA) = some l ∧ l.length = T.length ∧ IsPsi T SA (sym l) := by
  have hbl := hS.bwt_length
  obtain ⟨w, w1, w2, w3⟩ := hiW_spec (n := (bwtOf T SA).length) (by omega)
  obtain ⟨ds, e1, e2, e3, e4⟩ := hA.ex
  obtain ⟨cnt, c1, c2, c3, c4⟩ := cntLoop_ok (A := A) (cv := fun k => ((ds.take k).map (fun c => (bwtOf T SA).count c)).sum) (sg := A.sigma) (fun t ht => e4 t (by omega)) A.sigma 0 (Arr.new A.sigma 0 w) (by omega)
    (by rw [Select.Arr.new_xs]) (fun t ht => by
      show _ < 2 ^ IntVec.clampWidth w
      rw [w3]
      refine Nat.lt_of_le_of_lt ?_ w2
      obtain ⟨m1, m2⟩ := e3 t (by omega)
      have hmem : ds[t] ∈ bwtOf T SA := (e1.mem _).1 (List.getElem_mem _)
      obtain ⟨k, k1, k2, k3, k4, k5⟩ := hA.present hmem
      rw [m1] at k1
      cases k1
      rw [e4 t (by omega)] at k4
      rw [Option.some.inj k4]
      have := smaller_add_count_le_length (bwtOf T SA) ds[t]
      omega)
  obtain ⟨q, q1, q2, q3⟩ := psiLoop_ok hT hS hA (bwtOf T SA) 0 cnt (Arr.new (bwtOf T SA).length 0 w) rfl (by omega) c2 (by
      rw [c3]
      show _ < 2 ^ IntVec.clampWidth w
      rw [w3]; omega) (by rw [Select.Arr.new_xs, hbl]) (by
      show _ < 2 ^ IntVec.clampWidth w
      rw [w3]; omega) (fun c hc k hk => by
      obtain ⟨k', k1, k2, k3, k4, k5⟩ := alpha_rows hT hS hA hc
      rw [hk] at k1
      cases k1
      rw [c4 k k2, if_pos (Nat.zero_le _)]
      rw [e4 k (by omega)] at k4
      rw [k4]; rfl) (fun j hj => by omega)
  refine ⟨q.xs, by rw [sadaPsi, w1, sbind, c1, sbind, q1, sbind]; rfl, q2, fun k hk => ?_⟩
  obtain ⟨i, i1, i2⟩ := hS.surj (nxt_lt (n := T.length) (p := sym SA k) (by omega))
  obtain ⟨l1, l2⟩ := lfOf_ok hT hS i1
  have : lfOf T SA i = k := by
    rw [i2, prv_nxt (hS.sym_get_lt hk)] at l2
    exact hS.inj l1 hk l2
  have h3 := q3 i i1
  rw [this, Arr.get] at h3
  have : sym q.xs k = i := by rw [sym, List.getD_eq_getElem?_getD, h3]; rfl
  rw [this]
  exact ⟨i1, i2⟩

theorem IsPsi.inj {T SA : List Nat} {ps : Nat → Nat} (hS : IsSA T SA) (hp : IsPsi T SA ps) {i j : Nat} (hi : i < T.length) (hj : j < T.length) (h : ps i = ps j) : i = j := by
  obtain ⟨-, a⟩ := hp i hi
  obtain ⟨-, b⟩ := hp j hj
  rw [h, b] at a
  have h1 := prv_nxt (hS.sym_get_lt hi)
  have h2 := prv_nxt (hS.sym_get_lt hj)
  rw [← a, h2] at h1
  exact hS.inj hi hj h1.symm

/-- `csa_sada(config)`, csa_sada.hpp:395-429, up to the samples: the encoded Psi function and the alphabet. The coder is `c`, `dens` the density of its samples (`enc_vector<c, dens>`). -/
def newSada (ak : AlphaKind) (c : VC) (dens : Nat) (text sa : List Nat) : Option (Enc.Vec × Alpha) := do
  let bwt ← constructBwt text sa
  let a ← newAlpha ak bwt
  let l ← sadaPsi a bwt
  let e ← Enc.constructBuf c dens 0 (l.map (BitVec.ofNat 64))
  pure (e, a)

/-- `csa_bitcompressed(config)`, csa_bitcompressed.hpp:134-152: the alphabet is made from the text. -/
def newBit (ak : AlphaKind) (text sa : List Nat) : Option PsiCsa := do
  let a ← newAlpha ak text
  let s ← saOrder 1 sa
  let i ← isaSampling 1 sa
  pure (bitCsa s i text.length a)

theorem word_list (l : List Nat) (h : ∀ x ∈ l, x < 2 ^ 64) (i : Nat) : ((l.map (BitVec.ofNat 64))[i]?).map BitVec.toNat = l[i]? := by
  rw [List.getElem?_map]
  cases hx : l[i]? with
  | none => rfl
  | some x => simp only [Option.map_some, BitVec.toNat_ofNat]; rw [Nat.mod_eq_of_lt (h x (List.mem_of_getElem? hx))]

theorem encPsi_ok {k : CoderKind} {sh : Option Word} {dens : Nat} {l : List Nat} {e : Enc.Vec} (hd : 0 < dens) (hl : ∀ x ∈ l, x < 2 ^ 64) (h : Props.EncReads k sh dens (l.map (BitVec.ofNat 64)) e) {pad : List Word}
    (hpad : k.elias = true → pad ≠ [] ∨ e.zbits % 64 ≤ 49) : PsiVecOk (encPsi (k.vc sh) dens e pad) l.length (sym l) := by
  obtain ⟨h1, h2, h3, h4⟩ := h
  rw [List.length_map] at h1 h4
  have hw : ∀ i, i < l.length → (l.map (BitVec.ofNat 64))[i]? = some (BitVec.ofNat 64 (sym l i)) ∧ (BitVec.ofNat 64 (sym l i)).toNat = sym l i := by
    intro i hi
    rw [List.getElem?_map, List.getElem?_eq_getElem hi, sym_lt hi, BitVec.toNat_ofNat, Nat.mod_eq_of_lt (hl _ (List.getElem_mem hi))]
    exact ⟨rfl, rfl⟩
  refine ⟨h1, hd, fun i hi => ?_, fun i hi => ?_, fun i hi => ?_⟩
  · obtain ⟨w1, w2⟩ := hw i hi
    show (Enc.get (k.vc sh) dens e pad i).map BitVec.toNat = _
    rw [h2 pad hpad i _ w1, Option.map_some, w2]
  · obtain ⟨w1, w2⟩ := hw (i * dens) hi
    show (Enc.sample e i).map BitVec.toNat = _
    rw [h3 i _ w1, Option.map_some, w2]; rfl
  · obtain ⟨w1, w2⟩ := hw (i * dens) hi
    refine ⟨_, by
      show (Enc.inter (k.vc sh) dens e i).map (List.map BitVec.toNat) = _
      rw [h4 i hi, Option.map_some], by simp [encPsi], fun j hj => ?_⟩
    have hj' : j < min dens (l.length - i * dens) := by simpa using hj
    obtain ⟨v1, v2⟩ := hw (i * dens + j) (by omega)
    show add64 _ (sym l (i * dens)) = sym l (i * dens + j)
    rw [List.getD_eq_getElem?_getD, List.getElem?_eq_getElem hj]
    simp only [List.getElem_map, List.getElem_range, Option.getD_some]
    rw [List.getD_eq_getElem?_getD, List.getD_eq_getElem?_getD, v1, w1]
    simp only [Option.getD_some]
    rw [BitVec.toNat_sub, v2, w2, add64]
    have a1 := (BitVec.ofNat 64 (sym l (i * dens + j))).isLt
    have a2 := (BitVec.ofNat 64 (sym l (i * dens))).isLt
    rw [v2] at a1
    rw [w2] at a2
    omega

/-- Texts for a Psi-based CSA: the code length of Psi must fit in 64 bits. -/
def FitsPsi (ak : AlphaKind) (text : List Nat) : Prop :=
  (ak = .byte ∨ ak = .succinct → ∀ c ∈ text, c < 256) ∧ (∀ c ∈ text, c < 2 ^ 63) ∧ 255 * text.length + 1 < 2 ^ 64

theorem FitsPsi.fits {ak : AlphaKind} {T : List Nat} (h : FitsPsi ak T) : Fits .wmInt ak T := by
  obtain ⟨h1, h2, h3⟩ := h
  refine ⟨fun h => h1 (by rcases h with h | h | h <;> simp_all [TreeKind.isByte]), h2, h2, ?_⟩
  show T.length < 2 ^ 63
  omega

theorem Fits.perm {tk : TreeKind} {ak : AlphaKind} {L M : List Nat} (hp : L.Perm M) (h : Fits tk ak M) : Fits tk ak L := by
  obtain ⟨h1, h2, h3, h4⟩ := h
  exact ⟨fun a c hc => h1 a c (hp.mem_iff.1 hc), fun c hc => h2 c (hp.mem_iff.1 hc), fun c hc => h3 c (hp.mem_iff.1 hc), by rw [hp.length_eq]; exact h4⟩

theorem AlphaOk.perm {A : Alpha} {L M : List Nat} {Q : Nat → Prop} (hp : L.Perm M) (h : AlphaOk A L Q) : AlphaOk A M Q := by
  obtain ⟨ds, e1, e2, e3, e4⟩ := h.ex
  refine ⟨⟨ds, ⟨e1.sorted, fun c => by rw [e1.mem, hp.mem_iff]⟩, e2, e3, fun k hk => ?_⟩, fun c hc hm => h.absent c hc (by rw [hp.mem_iff]; exact hm)⟩
  rw [e4 k hk]
  congr 2
  exact List.map_congr_left (fun c _ => hp.count_eq c)

/-- Small numbers have a one among the low digits. -/
theorem zeck_small {x : Nat} (h0 : 0 < x) (h1 : x < 44945570212853) : zeck 65 x ≠ 0 := by
  have hlt : x < fibN 65 := by rw [show fibN 65 = 44945570212853 by decide +kernel]; exact h1
  intro h
  have h2 := (zeck_spec hlt).1
  rw [h] at h2
  have h3 : ∀ n, fibSum (fun i => (0 : Nat).testBit i) n = 0 := by
    intro n
    induction n with
    | zero => rfl
    | succ n ih => rw [fibSum, ih]; simp
  rw [h3] at h2
  omega

/-- Numbers slightly below `2^64` as well. -/
theorem zeck_big {k : Nat} (h0 : 0 < k) (h1 : k < 35521738396875) : zeck 93 (2 ^ 64 - k) % 2 ^ 65 = zeck 65 (35521738396875 - k) := by
  rw [show (2 : Nat) ^ 64 = 18446744073709551616 by rfl]
  have s91 : zeck 93 (18446744073709551616 - k) = 2 ^ 91 + zeck 91 (6246583658587674878 - k) := by
    rw [show 93 = 92 + 1 by rfl, zeck_stable (by rw [show fibN 92 = 19740274219868223167 by decide +kernel]; omega) 1]
    rw [show 92 = 91 + 1 by rfl, zeck, show fibN 91 = 12200160415121876738 by decide +kernel, if_pos (by omega), show 18446744073709551616 - k - 12200160415121876738 = 6246583658587674878 - k by omega]
  have s89 : zeck 91 (6246583658587674878 - k) = 2 ^ 89 + zeck 89 (1586537048212144569 - k) := by
    rw [show 91 = 90 + 1 by rfl, zeck_stable (by rw [show fibN 90 = 7540113804746346429 by decide +kernel]; omega) 1]
    rw [show 90 = 89 + 1 by rfl, zeck, show fibN 89 = 4660046610375530309 by decide +kernel, if_pos (by omega), show 6246583658587674878 - k - 4660046610375530309 = 1586537048212144569 - k by omega]
  have s86 : zeck 89 (1586537048212144569 - k) = 2 ^ 86 + zeck 86 (486449269846042638 - k) := by
    rw [show 89 = 87 + 2 by rfl, zeck_stable (by rw [show fibN 87 = 1779979416004714189 by decide +kernel]; omega) 2]
    rw [show 87 = 86 + 1 by rfl, zeck, show fibN 86 = 1100087778366101931 by decide +kernel, if_pos (by omega), show 1586537048212144569 - k - 1100087778366101931 = 486449269846042638 - k by omega]
  have s84 : zeck 86 (486449269846042638 - k) = 2 ^ 84 + zeck 84 (66253129118552965 - k) := by
    rw [show 86 = 85 + 1 by rfl, zeck_stable (by rw [show fibN 85 = 679891637638612258 by decide +kernel]; omega) 1]
    rw [show 85 = 84 + 1 by rfl, zeck, show fibN 84 = 420196140727489673 by decide +kernel, if_pos (by omega), show 486449269846042638 - k - 420196140727489673 = 66253129118552965 - k by omega]
  have s80 : zeck 84 (66253129118552965 - k) = 2 ^ 80 + zeck 80 (4947338396941374 - k) := by
    rw [show 84 = 81 + 3 by rfl, zeck_stable (by rw [show fibN 81 = 99194853094755497 by decide +kernel]; omega) 3]
    rw [show 81 = 80 + 1 by rfl, zeck, show fibN 80 = 61305790721611591 by decide +kernel, if_pos (by omega), show 66253129118552965 - k - 61305790721611591 = 4947338396941374 - k by omega]
  have s74 : zeck 80 (4947338396941374 - k) = 2 ^ 74 + zeck 74 (1530883774034667 - k) := by
    rw [show 80 = 75 + 5 by rfl, zeck_stable (by rw [show fibN 75 = 5527939700884757 by decide +kernel]; omega) 5]
    rw [show 75 = 74 + 1 by rfl, zeck, show fibN 74 = 3416454622906707 by decide +kernel, if_pos (by omega), show 4947338396941374 - k - 3416454622906707 = 1530883774034667 - k by omega]
  have s72 : zeck 74 (1530883774034667 - k) = 2 ^ 72 + zeck 72 (225914229106010 - k) := by
    rw [show 74 = 73 + 1 by rfl, zeck_stable (by rw [show fibN 73 = 2111485077978050 by decide +kernel]; omega) 1]
    rw [show 73 = 72 + 1 by rfl, zeck, show fibN 72 = 1304969544928657 by decide +kernel, if_pos (by omega), show 1530883774034667 - k - 1304969544928657 = 225914229106010 - k by omega]
  have s68 : zeck 72 (225914229106010 - k) = 2 ^ 68 + zeck 68 (35521738396875 - k) := by
    rw [show 72 = 69 + 3 by rfl, zeck_stable (by rw [show fibN 69 = 308061521170129 by decide +kernel]; omega) 3]
    rw [show 69 = 68 + 1 by rfl, zeck, show fibN 68 = 190392490709135 by decide +kernel, if_pos (by omega), show 225914229106010 - k - 190392490709135 = 35521738396875 - k by omega]
  have s65 : zeck 68 (35521738396875 - k) = zeck 65 (35521738396875 - k) := by
    rw [show 68 = 65 + 3 by rfl, zeck_stable (by rw [show fibN 65 = 44945570212853 by decide +kernel]; omega) 3]
  have hz := zeck_lt 65 (35521738396875 - k)
  rw [s91, s89, s86, s84, s80, s74, s72, s68, s65]
  omega

/-- Differences of numbers below 35521738396875 can be coded. -/
theorem fib_ok {a b : Nat} (ha : a < 35521738396875) (hb : b < 35521738396875) (hne : a ≠ b) : CoderKind.Ok none (BitVec.ofNat 64 a - BitVec.ofNat 64 b) .fib := by
  show zeck 93 (fibNum _) % 2 ^ 65 ≠ 0
  have hw : (BitVec.ofNat 64 a - BitVec.ofNat 64 b).toNat = if b ≤ a then a - b else 2 ^ 64 - (b - a) := by
    rw [BitVec.toNat_sub, BitVec.toNat_ofNat, BitVec.toNat_ofNat, Nat.mod_eq_of_lt (show a < 2 ^ 64 by omega), Nat.mod_eq_of_lt (show b < 2 ^ 64 by omega)]
    split <;> omega
  have h0 : BitVec.ofNat 64 a - BitVec.ofNat 64 b ≠ 0#64 := by
    intro h
    rw [h] at hw
    have : (0#64 : BitVec 64).toNat = 0 := rfl
    split at hw <;> omega
  rw [fibNum, if_neg h0, hw]
  split
  · have h1 := zeck_small (x := a - b) (by omega) (by omega)
    have h2 := zeck_lt 65 (a - b)
    rw [show 93 = 65 + 28 by rfl, zeck_stable (by rw [show fibN 65 = 44945570212853 by decide +kernel]; omega) 28]
    omega
  · rw [zeck_big (by omega) (by omega)]
    exact zeck_small (by omega) (by omega)

/-- Limits of the Fibonacci code. -/
def FibOk (k : CoderKind) (dens n : Nat) : Prop := k = .fib → dens ≤ 2 ^ 23 ∧ n ≤ 35521738396875

/-- `csa_sada`. -/
theorem newSada_ok {ak : AlphaKind} {k : CoderKind} (hk : k.Valid) {sh : Option Word} {dens : Nat} (hd : 0 < dens) {T SA : List Nat} (hT : IsText T) (hS : IsSA T SA) (hF : FitsPsi ak T) (hfib : FibOk k dens T.length) :
    ∃ e A, newSada ak (k.vc sh) dens T SA = some (e, A) ∧ ∀ pad, (k.elias = true → pad ≠ [] ∨ e.zbits % 64 ≤ 49) → ∀ S I buf fuel, SaSampleOk S T SA → IsaSampleOk I T SA → buf.length = bufSize dens →
      T.length ≤ fuel + 1 → PsiCsaOk (sadaCsa (encPsi (k.vc sh) dens e pad) A S I buf fuel) T SA (SymOk .wmInt ak) := by
  have hlen := hF.2.2
  have hbl := hS.bwt_length
  have hfit := hF.fits
  obtain ⟨A, a1, a2⟩ := newAlpha_spec (tk := .wmInt) (ak := ak) (L := bwtOf T SA) (by
    intro e
    have := hT.pos
    rw [← hbl, e] at this
    simp at this) (hfit.perm hS.bwt_perm)
  obtain ⟨l, l1, l2, l3⟩ := sadaPsi_ok hT hS a2 (by omega)
  have hlt : ∀ x ∈ l, x < 2 ^ 64 := by
    intro x hx
    obtain ⟨i, hi, rfl⟩ := List.mem_iff_getElem.1 hx
    have := (l3 i (by omega)).1
    rw [sym_lt hi] at this
    omega
  have hw : ∀ i, i < l.length → (l.map (BitVec.ofNat 64))[i]? = some (BitVec.ofNat 64 (sym l i)) := fun i hi => by rw [List.getElem?_map, List.getElem?_eq_getElem hi, sym_lt hi]; rfl
  obtain ⟨e, e1, e2⟩ := Props.C30_enc_vector_buffer_partial k hk sh dens 0 hd (fun h => (hfib h).1) (l.map (BitVec.ofNat 64)) (by
    intro i a b h1 h2 h3
    have hi : i + 1 < l.length := by
      have := (List.getElem?_eq_some_iff.1 h2).1
      rwa [List.length_map] at this
    rw [hw i (by omega)] at h1
    rw [hw (i + 1) hi] at h2
    cases h1; cases h2
    have hne : BitVec.ofNat 64 (sym l (i + 1)) - BitVec.ofNat 64 (sym l i) ≠ 0#64 := by
      intro h
      have h4 : BitVec.ofNat 64 (sym l (i + 1)) = BitVec.ofNat 64 (sym l i) := by
        rw [BitVec.sub_eq_iff_eq_add] at h
        rw [h, BitVec.zero_add]
      have h5 := congrArg BitVec.toNat h4
      have b1 := (l3 i (by omega)).1
      have b2 := (l3 (i + 1) (by omega)).1
      rw [BitVec.toNat_ofNat, BitVec.toNat_ofNat, Nat.mod_eq_of_lt (by omega), Nat.mod_eq_of_lt (by omega)] at h5
      have := l3.inj hS (i := i + 1) (j := i) (by omega) (by omega) h5
      omega
    cases k with
    | gamma => exact Or.inr hne
    | delta => exact Or.inr hne
    | comma t => trivial
    | fib =>
      have hlim := (hfib rfl).2
      have b1 := (l3 i (by omega)).1
      have b2 := (l3 (i + 1) (by omega)).1
      exact fib_ok (by omega) (by omega) (fun h => by
        have := l3.inj hS (i := i + 1) (j := i) (by omega) (by omega) h
        omega)) (Or.inl rfl) (by rw [List.length_map]; omega)
  refine ⟨e, A, by rw [newSada, constructBwt_spec hS (by omega), sbind, a1, sbind, l1, sbind, e1, sbind]; rfl, fun pad hpad S I buf fuel hSa hI hbuf hf => ?_⟩
  have hV := encPsi_ok (pad := pad) hd hlt e2 hpad
  rw [l2] at hV
  refine ⟨hT, hS, by omega, hV.size, a2, fun c hc => ⟨by have := hF.2.1 c hc; omega, fun h => hfit.1 h c hc⟩, ⟨_, l3, hV.get⟩, fun i hi => ?_, fun i hi => isaPsi_ok hV.get l3 hI (by omega) hi, fun i c hi hc => ?_⟩
  · show saPsi (encPsi (k.vc sh) dens e pad).size _ S fuel i = _
    rw [hV.size]
    exact saPsi_ok hS hV.get l3 hSa hf hi
  · refine rankSada_ok hT hS a2 hV l3 (by omega) ?_ hi hc
    rw [hbuf, bufSize]
    show _ ∨ _ = dens + 1
    split <;> simp

/-- `csa_bitcompressed`. -/
theorem newBit_ok {ak : AlphaKind} {T SA : List Nat} (hT : IsText T) (hS : IsSA T SA) (hF : Fits .wmInt ak T) : ∃ K, newBit ak T SA = some K ∧ PsiCsaOk K T SA (SymOk .wmInt ak) := by
  have hn : T.length < 2 ^ 63 := hF.2.2.2
  obtain ⟨A, a1, a2⟩ := newAlpha_spec (tk := .wmInt) (ak := ak) (L := T) (by
    intro e
    have := hT.pos
    rw [e] at this
    simp at this) hF
  have hA := a2.perm hS.bwt_perm.symm
  obtain ⟨S, s1, s2, s3⟩ := saOrder_spec hT hS (dens := 1) (by omega) (by omega)
  obtain ⟨a, b1, b2⟩ := isaSampling_spec hT hS (dens := 1) (by omega) (by omega)
  have hsa : ∀ i, i < T.length → S.get i = some (sym SA i) := by
    intro i hi
    obtain ⟨b, c1, c2⟩ := s2.def_ i hi
    rw [s3 i] at c1
    exact c2 (by rw [← Option.some.inj c1]; simp [Nat.mod_one])
  have hisa : ∀ i, i < T.length → ∃ r, a.get i = some r ∧ r < T.length ∧ sym SA r = i := by
    intro i hi
    obtain ⟨v, q, h1, h2, h3, h4⟩ := b2.leq i hi
    have h1 : ((a.get (i / 1)).bind fun v => some (v, i / 1 * 1)) = some (v, q) := h1
    rw [Nat.div_one, Nat.mul_one] at h1
    cases h5 : a.get i with
    | none => rw [h5] at h1; simp at h1
    | some v' =>
      rw [h5] at h1
      have := Option.some.inj h1
      rw [Prod.mk.injEq] at this
      obtain ⟨rfl, rfl⟩ := this
      exact ⟨v', rfl, h2, h3⟩
  have hpsi : ∃ ps, IsPsi T SA ps ∧ ∀ k, k < T.length → bitPsi T.length S.get a.get k = some (ps k) := by
    have hex : ∀ k, k < T.length → ∃ x, bitPsi T.length S.get a.get k = some x ∧ x < T.length ∧ sym SA x = nxt T.length (sym SA k) := by
      intro k hk
      have hp := hS.sym_get_lt hk
      obtain ⟨r, r1, r2, r3⟩ := hisa (nxt T.length (sym SA k)) (nxt_lt (by omega))
      exact ⟨r, by rw [bitPsi, hsa k hk, sbind, add64_eq (by omega)]; exact r1, r2, r3⟩
    refine ⟨fun k => (bitPsi T.length S.get a.get k).getD 0, fun k hk => ?_, fun k hk => ?_⟩
    · obtain ⟨x, x1, x2, x3⟩ := hex k hk
      dsimp only
      rw [x1]; exact ⟨x2, x3⟩
    · obtain ⟨x, x1, x2, x3⟩ := hex k hk
      dsimp only
      rw [x1]; rfl
  obtain ⟨ps, p1, p2⟩ := hpsi
  exact ⟨_, by rw [newBit, a1, sbind, s1, sbind, b1, sbind]; rfl, hT, hS, hn, rfl, hA, fun c hc => ⟨by have := hF.2.2.1 c hc; omega, fun h => hF.1 h c hc⟩, ⟨ps, p1, p2⟩, hsa, hisa,
    fun i c hi hc => rankBit_ok hT hS hA p2 p1 hc⟩

end Sdsl.Csa
