import Verif.SerialGood

/-! # Classes whose `load` does more than reading the members -/
namespace Sdsl.Serial
open IntVec (Byte)

/-- `inv_perm_support`: members inv_perm_support.hpp:59-62. -/
structure InvPerm (R : Type) where
  m_v : Ptr
  m_back_pointer : IntVec
  m_marked : IntVec
  m_rank_marked : R

/-- `serialize`, inv_perm_support.hpp:199-207. -/
def InvPerm.serialize {R : Type} (junk : Nat → Word) (cR : Codec R) (v : InvPerm R) : Option Out :=
  (vec junk 0).ser v.m_back_pointer +>
  (vec junk 1).ser v.m_marked +>
  cR.ser v.m_rank_marked

/-- `load`, inv_perm_support.hpp:210-214: the pointer to the permutation keeps its value. -/
def InvPerm.load {R : Type} (junk : Nat → Word) (cR : Codec R) (u : InvPerm R) (s : List Byte) : Option (InvPerm R × List Byte) := do
  let (m_back_pointer, s) ← (vec junk 0).load u.m_back_pointer none s
  let (m_marked, s) ← (vec junk 1).load u.m_marked none s
  let (m_rank_marked, s) ← cR.load u.m_rank_marked (some "m_marked") s
  some (⟨u.m_v, m_back_pointer, m_marked, m_rank_marked⟩, s)

/-- `_text_order_isa_sampling_support`: members csa_sampling_strategy.hpp:695-696. -/
structure TextIsa (S R : Type) where
  m_select_marked : S
  m_inv_perm : InvPerm R

/-- `serialize`, csa_sampling_strategy.hpp:770-778. -/
def TextIsa.serialize {S R : Type} (junk : Nat → Word) (cS : Codec S) (cR : Codec R) (v : TextIsa S R) : Option Out :=
  v.m_inv_perm.serialize junk cR +>
  cS.ser v.m_select_marked

/-- `set_vector(sa_sample)`, csa_sampling_strategy.hpp:788-797: `&(sa_sample->marked)` is the member `marked` of the samples. -/
def TextIsa.setVector {S R : Type} (cS : Codec S) (v : TextIsa S R) : Ptr → TextIsa S R
  | none => ⟨cS.setVec v.m_select_marked none, { v.m_inv_perm with m_v := none }⟩
  | some n => ⟨cS.setVec v.m_select_marked (some (n ++ ".marked")), { v.m_inv_perm with m_v := some n }⟩

/-- `load`, csa_sampling_strategy.hpp:781-786. -/
def TextIsa.load {S R : Type} (junk : Nat → Word) (cS : Codec S) (cR : Codec R) (u : TextIsa S R) (p : Ptr) (s : List Byte) :
    Option (TextIsa S R × List Byte) := do
  let (m_inv_perm, s) ← u.m_inv_perm.load junk cR s
  let (m_select_marked, s) ← cS.load u.m_select_marked none s
  some (TextIsa.setVector cS ⟨m_select_marked, m_inv_perm⟩ p, s)

/-- The functions of the class. -/
def textIsa {S R : Type} (junk : Nat → Word) (cS : Codec S) (cR : Codec R) : Codec (TextIsa S R) :=
  ⟨TextIsa.serialize junk cS cR, TextIsa.load junk cS cR, TextIsa.setVector cS⟩

/-- `_fuzzy_isa_sampling_support`: members csa_sampling_strategy.hpp:825-826. -/
structure FuzzyIsa (S : Type) where
  m_sa_p : Ptr
  m_select_marked_sa : S

/-- `set_vector(sa_sample)`, csa_sampling_strategy.hpp:930-936. -/
def FuzzyIsa.setVector {S : Type} (cS : Codec S) (v : FuzzyIsa S) : Ptr → FuzzyIsa S
  | none => ⟨none, v.m_select_marked_sa⟩
  | some n => ⟨some n, cS.setVec v.m_select_marked_sa (some (n ++ ".marked_sa"))⟩

/-- `load`, csa_sampling_strategy.hpp:924-928; `serialize` (913-921) writes the select support. -/
def FuzzyIsa.load {S : Type} (cS : Codec S) (u : FuzzyIsa S) (p : Ptr) (s : List Byte) : Option (FuzzyIsa S × List Byte) := do
  let (m_select_marked_sa, s) ← cS.load u.m_select_marked_sa none s
  some (FuzzyIsa.setVector cS ⟨u.m_sa_p, m_select_marked_sa⟩ p, s)

/-- The functions of the class. -/
def fuzzyIsa {S : Type} (cS : Codec S) : Codec (FuzzyIsa S) :=
  ⟨fun v => cS.ser v.m_select_marked_sa, FuzzyIsa.load cS, FuzzyIsa.setVector cS⟩

/-- `rmq_support_sparse_table`: members rmq_support_sparse_table.hpp:59-61. -/
structure RmqTable where
  m_v : Ptr
  m_k : Nat
  m_table : List IntVec

/-- `serialize`, rmq_support_sparse_table.hpp:176-187: reading `m_table[i]` behind the end is undefined. -/
def RmqTable.serialize (junk : Nat → Word) (v : RmqTable) : Option Out :=
  (num 8).ser v.m_k +>
  if v.m_table.length < v.m_k then none else serVector (vec junk 0) (v.m_table.take v.m_k)

/-- `load`, rmq_support_sparse_table.hpp:189-198: an empty table is not resized. -/
def RmqTable.load (junk : Nat → Word) (u : RmqTable) (p : Ptr) (s : List Byte) : Option (RmqTable × List Byte) := do
  let (m_k, s) ← (num 8).load u.m_k none s
  if m_k > 0 then
    let (m_table, s) ← loadVector (vec junk 0) (resize fresh u.m_table m_k) s
    some (⟨p, m_k, m_table⟩, s)
  else some (⟨p, m_k, u.m_table⟩, s)

/-- The functions of the class. -/
def rmqTable (junk : Nat → Word) : Codec RmqTable :=
  ⟨RmqTable.serialize junk, RmqTable.load junk, fun v p => { v with m_v := p }⟩

/-- `dac_vector_dp`: members dac_vector.hpp:64-69; `m_overflow_tmp` is empty after the construction. -/
structure DacDp (B R : Type) where
  m_size : Nat
  m_overflow : B
  m_overflow_rank : R
  m_data : List IntVec
  m_offsets : List Nat

/-- `serialize`, dac_vector.hpp:278-292. -/
def DacDp.serialize {B R : Type} (junk : Nat → Word) (cB : Codec B) (cR : Codec R) (v : DacDp B R) : Option Out :=
  cB.ser v.m_overflow +>
  cR.ser v.m_overflow_rank +>
  (stdVector (vec junk 0) fresh).ser v.m_data +>
  (stdVector (num 8) 0).ser v.m_offsets

/-- `load`, dac_vector.hpp:295-304: the size is the sum of the sizes of the levels. -/
def DacDp.load {B R : Type} (junk : Nat → Word) (cB : Codec B) (cR : Codec R) (u : DacDp B R) (_ : Ptr) (s : List Byte) :
    Option (DacDp B R × List Byte) := do
  let (m_overflow, s) ← cB.load u.m_overflow none s
  let (m_overflow_rank, s) ← cR.load u.m_overflow_rank none s
  let m_overflow_rank := cR.setVec m_overflow_rank (some "m_overflow")
  let (m_data, s) ← (stdVector (vec junk 0) fresh).load u.m_data none s
  let (m_offsets, s) ← (stdVector (num 8) 0).load u.m_offsets none s
  some (⟨m_data.foldl (fun a v => (a + v.numElems) % 2 ^ 64) 0, m_overflow, m_overflow_rank, m_data, m_offsets⟩, s)

/-- The functions of the class. -/
def dacDp {B R : Type} (junk : Nat → Word) (cB : Codec B) (cR : Codec R) : Codec (DacDp B R) :=
  ⟨DacDp.serialize junk cB cR, DacDp.load junk cB cR, fun v _ => v⟩

/-! ### Round trips -/

/-- A possible `inv_perm_support`. -/
structure okInvPerm {R : Type} (okR : R → Ptr → Prop) (v : InvPerm R) : Prop where
  m_back_pointer : okVec 0 v.m_back_pointer none
  m_marked : okVec 1 v.m_marked none
  m_rank_marked : okR v.m_rank_marked (some "m_marked")

/-- Same contents. -/
structure sameInvPerm {R : Type} (sameR : R → R → Prop) (v w : InvPerm R) : Prop where
  m_back_pointer : sameVec v.m_back_pointer w.m_back_pointer
  m_marked : sameVec v.m_marked w.m_marked
  m_rank_marked : sameR v.m_rank_marked w.m_rank_marked

theorem invPerm_rt {R : Type} (junk : Nat → Word) {cR : Codec R} {nR : Bool} {okR tgtR : R → Ptr → Prop} {sameR : R → R → Prop}
    (hR : Good cR nR okR tgtR sameR) (v : InvPerm R) (hv : okInvPerm okR v) :
    ∃ out, v.serialize junk cR = some (out, out.length) ∧ ∀ u rest, okInvPerm tgtR u →
      ∃ w, u.load junk cR (out ++ rest) = some (w, rest) ∧ sameInvPerm sameR v w ∧ okInvPerm okR w ∧ w.m_v = u.m_v := by
  obtain ⟨o0, s0, l0⟩ := (vec_good junk 0).rt v.m_back_pointer _ hv.m_back_pointer
  obtain ⟨o1, s1, l1⟩ := (vec_good junk 1).rt v.m_marked _ hv.m_marked
  obtain ⟨o2, s2, l2⟩ := hR.rt v.m_rank_marked _ hv.m_rank_marked
  refine ⟨o0 ++ (o1 ++ o2), by simp only [InvPerm.serialize, s0, s1, s2, andThen_some], fun u rest hu => ?_⟩
  obtain ⟨w2, e2, m2, k2⟩ := l2 u.m_rank_marked _ (some "m_marked") rest hu.m_rank_marked (by simp)
  obtain ⟨w1, e1, m1, k1⟩ := l1 u.m_marked _ none (o2 ++ rest) hu.m_marked (by simp)
  obtain ⟨w0, e0, m0, k0⟩ := l0 u.m_back_pointer _ none (o1 ++ (o2 ++ rest)) hu.m_back_pointer (by simp)
  refine ⟨⟨u.m_v, w0, w1, w2⟩, ?_, ⟨m0, m1, m2⟩, ⟨k0, k1, k2⟩, rfl⟩
  simp only [InvPerm.load, List.append_assoc, e0, e1, e2, Option.bind_eq_bind, Option.bind_some]

/-- A possible support on the samples `p`: it selects in their marks and inverts their permutation. -/
structure okTextIsa {S R : Type} (okS : S → Ptr → Prop) (okR : R → Ptr → Prop) (v : TextIsa S R) (p : Ptr) : Prop where
  m_select_marked : okS v.m_select_marked (p.map (· ++ ".marked"))
  m_inv_perm : okInvPerm okR v.m_inv_perm
  m_v : v.m_inv_perm.m_v = p

/-- Same contents. -/
structure sameTextIsa {S R : Type} (sameS : S → S → Prop) (sameR : R → R → Prop) (v w : TextIsa S R) : Prop where
  m_select_marked : sameS v.m_select_marked w.m_select_marked
  m_inv_perm : sameInvPerm sameR v.m_inv_perm w.m_inv_perm

theorem textIsa_set {S R : Type} {cS : Codec S} {okS tgtS : S → Ptr → Prop} {sameS : S → S → Prop} {okR : R → Ptr → Prop}
    {sameR : R → R → Prop} (hS : Good cS false okS tgtS sameS) (v w : TextIsa S R) (q p' : Ptr)
    (h1 : okS w.m_select_marked q) (h2 : okInvPerm okR w.m_inv_perm) (e : sameTextIsa sameS sameR v w) :
    sameTextIsa sameS sameR v (TextIsa.setVector cS w p') ∧ okTextIsa okS okR (TextIsa.setVector cS w p') p' := by
  cases p' with
  | none =>
    obtain ⟨a, b⟩ := hS.setVec v.m_select_marked w.m_select_marked q none h1 e.m_select_marked
    exact ⟨⟨a, ⟨e.m_inv_perm.1, e.m_inv_perm.2, e.m_inv_perm.3⟩⟩, b, ⟨h2.1, h2.2, h2.3⟩, rfl⟩
  | some n =>
    obtain ⟨a, b⟩ := hS.setVec v.m_select_marked w.m_select_marked q (some (n ++ ".marked")) h1 e.m_select_marked
    exact ⟨⟨a, ⟨e.m_inv_perm.1, e.m_inv_perm.2, e.m_inv_perm.3⟩⟩, b, ⟨h2.1, h2.2, h2.3⟩, rfl⟩

theorem textIsa_good {S R : Type} (junk : Nat → Word) {cS : Codec S} {cR : Codec R} {nR : Bool} {okS tgtS : S → Ptr → Prop}
    {sameS : S → S → Prop} {okR tgtR : R → Ptr → Prop} {sameR : R → R → Prop} (hS : Good cS false okS tgtS sameS)
    (hR : Good cR nR okR tgtR sameR) : Good (textIsa junk cS cR) false (okTextIsa okS okR) (lax (okTextIsa tgtS tgtR)) (sameTextIsa sameS sameR) := by
  refine ⟨fun v p hv => ?_, fun v w p p' h e => textIsa_set hS v w _ p' h.1 h.2 e⟩
  obtain ⟨o0, s0, l0⟩ := invPerm_rt junk hR v.m_inv_perm hv.m_inv_perm
  obtain ⟨o1, s1, l1⟩ := hS.rt v.m_select_marked _ hv.m_select_marked
  refine ⟨o0 ++ o1, by simp only [textIsa, TextIsa.serialize, s0, s1, andThen_some], fun u q p' rest hu _ => ?_⟩
  obtain ⟨_, hu⟩ := hu
  obtain ⟨w1, e1, m1, k1⟩ := l1 u.m_select_marked _ none rest hu.m_select_marked (by simp)
  obtain ⟨w0, e0, m0, k0, -⟩ := l0 u.m_inv_perm (o1 ++ rest) hu.m_inv_perm
  obtain ⟨a, b⟩ := textIsa_set (okR := okR) (sameR := sameR) hS v ⟨w1, w0⟩ none p' k1 k0 ⟨m1, m0⟩
  refine ⟨_, ?_, a, b⟩
  simp only [textIsa, TextIsa.load, List.append_assoc, e0, e1, Option.bind_eq_bind, Option.bind_some]

/-- A possible support on the fuzzy samples `p`: it selects in their marks. -/
def okFuzzyIsa {S : Type} (okS : S → Ptr → Prop) (v : FuzzyIsa S) (p : Ptr) : Prop :=
  v.m_sa_p = p ∧ ∃ q, okS v.m_select_marked_sa q ∧ ∀ n, p = some n → q = some (n ++ ".marked_sa")

/-- Same contents. -/
def sameFuzzyIsa {S : Type} (sameS : S → S → Prop) (v w : FuzzyIsa S) : Prop := sameS v.m_select_marked_sa w.m_select_marked_sa

theorem fuzzyIsa_set {S : Type} {cS : Codec S} {okS tgtS : S → Ptr → Prop} {sameS : S → S → Prop} (hS : Good cS false okS tgtS sameS)
    (v w : FuzzyIsa S) (q p' : Ptr) (h : okS w.m_select_marked_sa q) (e : sameFuzzyIsa sameS v w) :
    sameFuzzyIsa sameS v (FuzzyIsa.setVector cS w p') ∧ okFuzzyIsa okS (FuzzyIsa.setVector cS w p') p' := by
  cases p' with
  | none => exact ⟨e, rfl, q, h, by simp⟩
  | some n =>
    obtain ⟨a, b⟩ := hS.setVec v.m_select_marked_sa w.m_select_marked_sa q (some (n ++ ".marked_sa")) h e
    exact ⟨a, rfl, _, b, fun m hm => by cases hm; rfl⟩

theorem fuzzyIsa_good {S : Type} {cS : Codec S} {okS tgtS : S → Ptr → Prop} {sameS : S → S → Prop} (hS : Good cS false okS tgtS sameS) :
    Good (fuzzyIsa cS) false (okFuzzyIsa okS) (lax (okFuzzyIsa tgtS)) (sameFuzzyIsa sameS) := by
  refine ⟨fun v p hv => ?_, fun v w p p' h e => ?_⟩
  · obtain ⟨-, q0, hq, -⟩ := hv
    obtain ⟨o, s, l⟩ := hS.rt v.m_select_marked_sa _ hq
    refine ⟨o, s, fun u q p' rest hu _ => ?_⟩
    obtain ⟨_, -, q1, hq1, -⟩ := hu
    obtain ⟨w, e, m, k⟩ := l u.m_select_marked_sa _ none rest hq1 (by simp)
    obtain ⟨a, b⟩ := fuzzyIsa_set hS v ⟨u.m_sa_p, w⟩ none p' k m
    refine ⟨_, ?_, a, b⟩
    simp only [fuzzyIsa, FuzzyIsa.load, e, Option.bind_eq_bind, Option.bind_some]
  · obtain ⟨-, q, hq, -⟩ := h
    exact fuzzyIsa_set hS v w q p' hq e

/-- A possible sparse table over `p`: there are at least `m_k` rows. -/
def okRmqTable (v : RmqTable) (p : Ptr) : Prop :=
  v.m_v = p ∧ v.m_k < 2 ^ 64 ∧ v.m_k ≤ v.m_table.length ∧ ∀ x ∈ v.m_table, okVec 0 x none

/-- Same rows. -/
def sameRmqTable (v w : RmqTable) : Prop :=
  w.m_k = v.m_k ∧ List.Forall₂ sameVec (v.m_table.take v.m_k) (w.m_table.take w.m_k)

theorem rmqTable_good (junk : Nat → Word) : Good (rmqTable junk) false okRmqTable (lax okRmqTable) sameRmqTable := by
  refine ⟨fun v p hv => ?_, fun v w p p' h e => ⟨e, rfl, h.2⟩⟩
  obtain ⟨-, h2, h3, h4⟩ := hv
  obtain ⟨o0, s0, l0⟩ := (num_good 8).rt v.m_k none (show v.m_k < 256 ^ 8 by omega)
  obtain ⟨o1, s1, l1⟩ := serVector_good (vec_good junk 0) (v.m_table.take v.m_k) (fun x hx => h4 x (List.mem_of_mem_take hx))
  have htl : (v.m_table.take v.m_k).length = v.m_k := by rw [List.length_take]; omega
  refine ⟨o0 ++ o1, ?_, fun u q p' rest hu _ => ?_⟩
  · simp only [rmqTable, RmqTable.serialize]
    rw [if_neg (by omega), s0, s1, andThen_some]
  · obtain ⟨_, hu⟩ := hu
    obtain ⟨w0, e0, m0, k0⟩ := l0 u.m_k none none (o1 ++ rest) (show u.m_k < 256 ^ 8 from hu.2.1) (by simp)
    subst m0
    by_cases hk : v.m_k > 0
    · obtain ⟨w1, e1, m1, k1⟩ := l1 (resize fresh u.m_table v.m_k) rest (by rw [resize_length, htl]) (resize_mem fresh_ok hu.2.2.2)
      have hl := m1.length_eq
      refine ⟨⟨p', v.m_k, w1⟩, ?_, ⟨rfl, ?_⟩, rfl, h2, by simp only; omega, k1⟩
      · simp only [rmqTable, RmqTable.load, List.append_assoc, e0, Option.bind_eq_bind, Option.bind_some]
        rw [if_pos hk]
        simp only [e1, Option.bind_some]
      · simp only
        rw [List.take_of_length_le (l := w1) (by omega)]
        exact m1
    · have hk0 : v.m_k = 0 := by omega
      have ho : o1 = [] := by
        rw [hk0] at s1
        simp only [List.take_zero, serVector, Option.some.injEq, Prod.mk.injEq] at s1
        exact s1.1.symm
      refine ⟨⟨p', v.m_k, u.m_table⟩, ?_, ⟨rfl, by simp [hk0]⟩, rfl, h2, by simp only; omega, hu.2.2.2⟩
      simp only [rmqTable, RmqTable.load, List.append_assoc, e0, Option.bind_eq_bind, Option.bind_some]
      rw [if_neg hk, ho]; rfl

/-- A possible object: its size is the sum of the sizes of the levels. -/
structure okDacDp {B R : Type} (okB : B → Ptr → Prop) (okR : R → Ptr → Prop) (v : DacDp B R) (_ : Ptr) : Prop where
  m_size : v.m_size = (v.m_data.map IntVec.numElems).sum
  lt : v.m_size < 2 ^ 64
  m_overflow : okB v.m_overflow none
  m_overflow_rank : okR v.m_overflow_rank (some "m_overflow")
  m_data : okList (okVec 0) v.m_data none
  m_offsets : okList (okNum 8) v.m_offsets none

/-- An object that `load` can be called on. -/
structure tgtDacDp {B R : Type} (tgtB : B → Ptr → Prop) (tgtR : R → Ptr → Prop) (v : DacDp B R) (_ : Ptr) : Prop where
  m_overflow : tgtB v.m_overflow none
  m_overflow_rank : tgtR v.m_overflow_rank none
  m_data : okList (okVec 0) v.m_data none
  m_offsets : okList (okNum 8) v.m_offsets none

/-- Same contents. -/
structure sameDacDp {B R : Type} (sameB : B → B → Prop) (sameR : R → R → Prop) (v w : DacDp B R) : Prop where
  m_size : v.m_size = w.m_size
  m_overflow : sameB v.m_overflow w.m_overflow
  m_overflow_rank : sameR v.m_overflow_rank w.m_overflow_rank
  m_data : List.Forall₂ sameVec v.m_data w.m_data
  m_offsets : List.Forall₂ Eq v.m_offsets w.m_offsets

theorem sum_same {l l' : List IntVec} (h : List.Forall₂ sameVec l l') :
    (l'.map IntVec.numElems).sum = (l.map IntVec.numElems).sum := by
  induction h with
  | nil => rfl
  | cons h _ ih =>
    simp only [List.map_cons, List.sum_cons, ih, IntVec.numElems]
    rw [h.1, h.2.1]

theorem foldl_sum (l : List IntVec) : ∀ a, a + (l.map IntVec.numElems).sum < 2 ^ 64 →
    l.foldl (fun a v => (a + v.numElems) % 2 ^ 64) a = a + (l.map IntVec.numElems).sum := by
  induction l with
  | nil => intro a _; rfl
  | cons x l ih =>
    intro a h
    simp only [List.map_cons, List.sum_cons] at h ⊢
    rw [List.foldl_cons, Nat.mod_eq_of_lt (by omega), ih _ (by omega)]
    omega

theorem dacDp_good {B R : Type} (junk : Nat → Word) {cB : Codec B} {cR : Codec R} {okB tgtB : B → Ptr → Prop} {sameB : B → B → Prop}
    {okR tgtR : R → Ptr → Prop} {sameR : R → R → Prop} (hB : Good cB false okB tgtB sameB) (hR : Good cR false okR tgtR sameR) :
    Good (dacDp junk cB cR) false (okDacDp okB okR) (tgtDacDp tgtB tgtR) (sameDacDp sameB sameR) := by
  refine ⟨fun v p hv => ?_, fun v w p p' h e => ⟨e, ⟨h.1, h.2, h.3, h.4, h.5, h.6⟩⟩⟩
  obtain ⟨o0, s0, l0⟩ := hB.rt v.m_overflow _ hv.m_overflow
  obtain ⟨o1, s1, l1⟩ := hR.rt v.m_overflow_rank _ hv.m_overflow_rank
  obtain ⟨o2, s2, l2⟩ := (stdVector_good (vec_good junk 0) fresh_ok).rt v.m_data _ hv.m_data
  obtain ⟨o3, s3, l3⟩ := (stdVector_good (num_good 8) (okNum_zero 8)).rt v.m_offsets _ hv.m_offsets
  refine ⟨o0 ++ (o1 ++ (o2 ++ o3)), by simp only [dacDp, DacDp.serialize, s0, s1, s2, s3, andThen_some], fun u q p' rest hu _ => ?_⟩
  obtain ⟨w3, e3, m3, k3⟩ := l3 u.m_offsets _ none rest hu.m_offsets (by simp)
  obtain ⟨w2, e2, m2, k2⟩ := l2 u.m_data _ none (o3 ++ rest) hu.m_data (by simp)
  obtain ⟨w1, e1, m1, k1⟩ := l1 u.m_overflow_rank _ none (o2 ++ (o3 ++ rest)) hu.m_overflow_rank (by simp)
  obtain ⟨mm, kk⟩ := hR.setVec v.m_overflow_rank w1 none (some "m_overflow") k1 m1
  obtain ⟨w0, e0, m0, k0⟩ := l0 u.m_overflow _ none (o1 ++ (o2 ++ (o3 ++ rest))) hu.m_overflow (by simp)
  have hsum := sum_same m2
  have hsz := hv.m_size
  have hlt := hv.lt
  have hfold := foldl_sum w2 0 (by omega)
  rw [Nat.zero_add] at hfold
  refine ⟨⟨w2.foldl (fun a v => (a + v.numElems) % 2 ^ 64) 0, w0, cR.setVec w1 (some "m_overflow"), w2, w3⟩, ?_,
    ⟨by simp only; rw [hfold]; omega, m0, mm, m2, m3⟩, ⟨hfold, by simp only; rw [hfold]; omega, k0, kk, k2, k3⟩⟩
  simp only [dacDp, DacDp.load, List.append_assoc, e0, e1, e2, e3, Option.bind_eq_bind, Option.bind_some]

end Sdsl.Serial
