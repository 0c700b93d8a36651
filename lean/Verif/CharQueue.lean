import Verif.Basic

/-! # `buffered_char_queue`

Model of include/sdsl/construct_lcp_helper.hpp:35-60 and lib/construct_lcp_helper.cpp:48-99: a queue of bytes with a write buffer and a read
buffer of `m_buffer_size` bytes each; full write buffers are written to a file as long as the read buffer is in use.

The file system is a function from names to contents. `m_buffer_size` (10000 in the code) is the parameter `B` of the functions. Positions in
the file are unbounded. A read behind the end of the file sets the failbit of the stream, which is not modelled further (`none`); so are
accesses outside of the buffers. The buffers of a new object are uninitialised (arguments of `init`). The destructor (which removes the file)
is not modelled. -/
namespace Sdsl.CharQueue

abbrev Byte := BitVec 8

/-- Names and contents of the files. -/
abbrev Fs := String → List Byte

/-- The members, construct_lcp_helper.hpp:40-53. -/
structure Q where
  writeBuf : List Byte
  readBuf : List Byte
  widx : Nat
  ridx : Nat
  sync : Bool
  disk : Nat
  rb : Nat
  wb : Nat
  name : String
  isOpen : Bool

/-- `m_buffer_size`, construct_lcp_helper.hpp:40. -/
def bufferSize : Nat := 10000

/-- Constructor and `init(dir, c)`, construct_lcp_helper.cpp:48-55: the name does not depend on `c`. -/
def init (junk junk' : List Byte) (dir : String) (_c : Char) (pid : Nat) : Q :=
  ⟨junk, junk', 0, 0, true, 0, 0, 0, dir ++ "buffered_char_queue_" ++ toString pid, false⟩

/-- `seekp(pos)` and `write`: the file grows if necessary. -/
def writeAt (f : List Byte) (pos : Nat) (xs : List Byte) : List Byte :=
  f.take pos ++ List.replicate (pos - f.length) 0 ++ xs ++ f.drop (pos + xs.length)

/-- `seekg(pos)` and `read` of `n` bytes. -/
def readAt (f : List Byte) (pos n : Nat) : Option (List Byte) := if pos + n ≤ f.length then some ((f.drop pos).take n) else none

/-- A file gets new contents. -/
def Fs.set (fs : Fs) (s : String) (d : List Byte) : Fs := fun t => if t = s then d else fs t

/-- `push_back(x)`, construct_lcp_helper.cpp:63-81. Opening the file truncates it (`std::ios::trunc`). -/
def push (B : Nat) (q : Q) (fs : Fs) (x : Byte) : Option (Q × Fs) :=
  if q.widx < B then
    let w := q.writeBuf.set q.widx x
    let r := if q.sync then q.readBuf.set q.widx x else q.readBuf
    if q.widx + 1 = B then
      if q.sync then some ({ q with writeBuf := w, readBuf := r, sync := false, widx := 0 }, fs)
      else
        let f := if q.isOpen then fs q.name else []
        some ({ q with writeBuf := w, readBuf := r, sync := false, widx := 0, isOpen := true, wb := q.wb + 1, disk := q.disk + 1 },
          fs.set q.name (writeAt f (B * q.wb) w))
    else some ({ q with writeBuf := w, readBuf := r, widx := q.widx + 1 }, fs)
  else none

/-- `pop_front()`, construct_lcp_helper.cpp:83-99. -/
def pop (B : Nat) (q : Q) (fs : Fs) : Option (Byte × Q) :=
  match q.readBuf[q.ridx]? with
  | none => none
  | some x =>
    if q.ridx + 1 = B then
      if q.disk > 0 then
        match readAt (fs q.name) (B * q.rb) B with
        | none => none
        | some r => some (x, { q with readBuf := r, rb := q.rb + 1, disk := q.disk - 1, ridx := 0 })
      else if q.widx + 1 ≤ B then
        some (x, { q with sync := true, readBuf := q.writeBuf.take (q.widx + 1) ++ q.readBuf.drop (q.widx + 1), ridx := 0 })
      else none
    else some (x, { q with ridx := q.ridx + 1 })

/-- What a program does with a queue; `other` is a change of another file. -/
inductive Op where
  | push (x : Byte)
  | pop
  | other (name : String) (d : List Byte)

/-- The bytes that are returned. -/
def run (B : Nat) : Q → Fs → List Op → Option (List Byte)
  | _, _, [] => some []
  | q, fs, .push x :: l => match push B q fs x with
    | none => none
    | some (q', fs') => run B q' fs' l
  | q, fs, .pop :: l => match pop B q fs with
    | none => none
    | some (x, q') => (run B q' fs l).map (x :: ·)
  | q, fs, .other s d :: l => run B q (fs.set s d) l

/-- Two queues in one file system: `false` is the first. -/
def run2 (B : Nat) : Q → Q → Fs → List (Bool × Op) → Option (List (Bool × Byte))
  | _, _, _, [] => some []
  | a, b, fs, (w, .push x) :: l => match push B (if w then b else a) fs x with
    | none => none
    | some (q', fs') => if w then run2 B a q' fs' l else run2 B q' b fs' l
  | a, b, fs, (w, .pop) :: l => match pop B (if w then b else a) fs with
    | none => none
    | some (x, q') => (if w then run2 B a q' fs l else run2 B q' b fs l).map ((w, x) :: ·)
  | a, b, fs, (_, .other s d) :: l => run2 B a b (fs.set s d) l

/-! ### Specification -/

/-- A queue. -/
def fifo : List Byte → List Op → Option (List Byte)
  | _, [] => some []
  | c, .push x :: l => fifo (c ++ [x]) l
  | [], .pop :: _ => none
  | x :: c, .pop :: l => (fifo c l).map (x :: ·)
  | c, .other _ _ :: l => fifo c l

/-- Two queues. -/
def fifo2 : List Byte → List Byte → List (Bool × Op) → Option (List (Bool × Byte))
  | _, _, [] => some []
  | c, d, (false, .push x) :: l => fifo2 (c ++ [x]) d l
  | c, d, (true, .push x) :: l => fifo2 c (d ++ [x]) l
  | [], _, (false, .pop) :: _ => none
  | x :: c, d, (false, .pop) :: l => (fifo2 c d l).map ((false, x) :: ·)
  | _, [], (true, .pop) :: _ => none
  | c, x :: d, (true, .pop) :: l => (fifo2 c d l).map ((true, x) :: ·)
  | c, d, (_, .other _ _) :: l => fifo2 c d l

/-! ### Proofs -/

/-- The contents of the file as far as this queue wrote it. -/
def cur (q : Q) (fs : Fs) : List Byte := if q.isOpen then fs q.name else []

/-- The queue holds `c`. -/
structure Inv (B : Nat) (q : Q) (fs : Fs) (c : List Byte) : Prop where
  lw : q.writeBuf.length = B
  lr : q.readBuf.length = B
  wi : q.widx < B
  ri : q.ridx < B
  len : (cur q fs).length = B * q.wb
  blk : q.wb = q.rb + q.disk
  syn : q.sync = true → q.disk = 0 ∧ q.ridx ≤ q.widx ∧ q.readBuf.take q.widx = q.writeBuf.take q.widx ∧
    c = (q.readBuf.take q.widx).drop q.ridx
  asy : q.sync = false → c = q.readBuf.drop q.ridx ++ (cur q fs).drop (B * q.rb) ++ q.writeBuf.take q.widx

theorem take_set_succ {l : List Byte} {i : Nat} (x : Byte) (h : i < l.length) : (l.set i x).take (i + 1) = l.take i ++ [x] := by
  rw [List.take_add_one, List.take_set_of_le (Nat.le_refl i), List.getElem?_set_self h]
  rfl

theorem set_last {l : List Byte} {i : Nat} (x : Byte) (h : i + 1 = l.length) : l.set i x = l.take i ++ [x] := by
  rw [← take_set_succ x (by omega), List.take_of_length_le]
  simp; omega

theorem push_inv {B : Nat} {q : Q} {fs : Fs} {c : List Byte} (h : Inv B q fs c) (x : Byte) :
    ∃ q' fs', push B q fs x = some (q', fs') ∧ Inv B q' fs' (c ++ [x]) ∧ q'.name = q.name ∧ q'.ridx = q.ridx ∧ q'.rb = q.rb ∧
      ∀ s, s ≠ q.name → fs' s = fs s := by
  have hw := h.wi
  have hB : 0 < B := by omega
  have hr := h.ri
  have hlw := h.lw
  have hlr := h.lr
  unfold push
  rw [if_pos hw]
  cases hs : q.sync
  · have ha := h.asy hs
    simp only [Bool.false_eq_true, if_false]
    by_cases e : q.widx + 1 = B
    · rw [if_pos e]
      have hcur : (if q.isOpen = true then fs q.name else []) = cur q fs := rfl
      have hwr : writeAt (cur q fs) (B * q.wb) (q.writeBuf.set q.widx x) = cur q fs ++ q.writeBuf.set q.widx x := by
        unfold writeAt
        rw [h.len, Nat.sub_self, List.take_of_length_le (Nat.le_of_eq h.len), List.drop_eq_nil_of_le (by rw [h.len]; omega)]
        simp
      rw [hcur, hwr]
      have hc' : ∀ q' : Q, q'.isOpen = true → q'.name = q.name →
          cur q' (fs.set q.name (cur q fs ++ q.writeBuf.set q.widx x)) = cur q fs ++ q.writeBuf.set q.widx x := by
        intro q' h1 h2
        show (if q'.isOpen = true then _ else _) = _
        rw [if_pos h1, h2]
        unfold Fs.set
        rw [if_pos rfl]
      refine ⟨_, _, rfl, ⟨by simp [hlw], hlr, hB, hr, ?_, ?_, by simp, fun _ => ?_⟩, rfl, rfl, rfl, fun s hs' => ?_⟩
      · rw [hc']
        · rw [List.length_append, h.len, List.length_set, hlw, Nat.mul_succ]
        · rfl
        · rfl
      · have := h.blk
        simp only
        omega
      · rw [hc']
        · rw [ha, set_last x (by omega)]
          simp only [List.take_zero, List.append_nil]
          rw [List.drop_append_of_le_length (by rw [h.len, h.blk, Nat.mul_add]; omega)]
          simp only [List.append_assoc]
        · rfl
        · rfl
      · unfold Fs.set; rw [if_neg hs']
    · rw [if_neg e]
      refine ⟨_, _, rfl, ⟨by simp [hlw], hlr, by simp only; omega, hr, h.len, h.blk, by simp, fun _ => ?_⟩, rfl, rfl, rfl, fun _ _ => rfl⟩
      simp only
      rw [ha, take_set_succ x (by omega)]
      simp only [List.append_assoc]
      rfl
  · obtain ⟨h1, h2, h3, h4⟩ := h.syn hs
    simp only [if_true]
    have hc : c ++ [x] = ((q.readBuf.set q.widx x).take (q.widx + 1)).drop q.ridx := by
      rw [take_set_succ x (by omega), h4, List.drop_append_of_le_length (by rw [List.length_take]; omega)]
    by_cases e : q.widx + 1 = B
    · rw [if_pos e]
      refine ⟨_, _, rfl, ⟨by simp [hlw], by simp [hlr], hB, hr, h.len, h.blk, by simp, fun _ => ?_⟩, rfl, rfl, rfl, fun _ _ => rfl⟩
      have hd : (cur q fs).drop (B * q.rb) = [] := List.drop_eq_nil_of_le (by
        rw [h.len, h.blk, h1]; simp)
      simp only [List.take_zero, List.append_nil]
      rw [hc, e, List.take_of_length_le (by simp [hlr])]
      show List.drop q.ridx _ = List.drop q.ridx _ ++ List.drop (B * q.rb) (cur q fs)
      rw [hd, List.append_nil]
    · rw [if_neg e]
      refine ⟨_, _, rfl, ⟨by simp [hlw], by simp [hlr], by simp only; omega, hr, h.len, h.blk, fun _ => ⟨h1, by simp only; omega, ?_, hc⟩,
        by simp⟩, rfl, rfl, rfl, fun _ _ => rfl⟩
      simp only
      rw [take_set_succ x (by omega), take_set_succ x (by omega), h3]

theorem pop_inv {B : Nat} {q : Q} {fs : Fs} {x : Byte} {c : List Byte} (h : Inv B q fs (x :: c)) :
    ∃ q', pop B q fs = some (x, q') ∧ Inv B q' fs c ∧ q'.name = q.name := by
  have hw := h.wi
  have hB : 0 < B := by omega
  have hr := h.ri
  have hlw := h.lw
  have hlr := h.lr
  unfold pop
  rw [List.getElem?_eq_getElem (by omega)]
  simp only
  cases hs : q.sync
  · have ha := h.asy hs
    rw [List.drop_eq_getElem_cons (by omega)] at ha
    simp only [List.cons_append, List.cons.injEq] at ha
    obtain ⟨ha1, ha2⟩ := ha
    rw [← ha1]
    by_cases e : q.ridx + 1 = B
    · rw [if_pos e]
      rw [e, List.drop_of_length_le (by omega), List.nil_append] at ha2
      by_cases hd : q.disk > 0
      · rw [if_pos hd]
        have hopen : q.isOpen = true := by
          refine Decidable.byContradiction fun hn => ?_
          have := h.len
          unfold cur at this
          rw [if_neg hn, h.blk] at this
          simp only [List.length_nil] at this
          have := Nat.mul_pos hB (show 0 < q.rb + q.disk by omega)
          omega
        have hc : cur q fs = fs q.name := by unfold cur; rw [if_pos hopen]
        have hle : B * q.rb + B ≤ (fs q.name).length := by
          rw [← hc, h.len, h.blk, ← Nat.mul_succ]
          exact Nat.mul_le_mul_left B (by omega)
        unfold readAt
        rw [if_pos hle]
        refine ⟨_, rfl, ⟨hlw, by simp; omega, hw, hB, h.len, by have := h.blk; simp only; omega, by simp, fun _ => ?_⟩, rfl⟩
        simp only [List.drop_zero]
        rw [ha2, hc]
        show _ = _ ++ List.drop (B * (q.rb + 1)) (cur q fs) ++ _
        rw [hc, Nat.mul_succ, ← List.drop_drop, List.take_append_drop]
      · rw [if_neg hd, if_pos (by omega)]
        have hnil : (cur q fs).drop (B * q.rb) = [] := List.drop_eq_nil_of_le (by
          rw [h.len, h.blk, show q.disk = 0 by omega]; simp)
        rw [hnil, List.nil_append] at ha2
        have htk : (q.writeBuf.take (q.widx + 1) ++ q.readBuf.drop (q.widx + 1)).take q.widx = q.writeBuf.take q.widx := by
          rw [List.take_append_of_le_length (by rw [List.length_take]; omega), List.take_take, Nat.min_eq_left (by omega)]
        refine ⟨_, rfl, ⟨hlw, by simp; omega, hw, hB, h.len, h.blk, fun _ => ⟨by simp only; omega, Nat.zero_le _, htk, ?_⟩, by simp⟩, rfl⟩
        simp only [List.drop_zero]
        rw [htk, ha2]
    · rw [if_neg e]
      exact ⟨_, rfl, ⟨hlw, hlr, hw, by simp only; omega, h.len, h.blk, by simp, fun _ => ha2⟩, rfl⟩
  · obtain ⟨h1, h2, h3, h4⟩ := h.syn hs
    have hlt : q.ridx < (q.readBuf.take q.widx).length := by
      refine Decidable.byContradiction fun hn => ?_
      rw [List.drop_of_length_le (by omega)] at h4
      cases h4
    rw [List.drop_eq_getElem_cons hlt] at h4
    simp only [List.cons.injEq, List.getElem_take] at h4
    obtain ⟨h4, h5⟩ := h4
    rw [← h4]
    rw [List.length_take] at hlt
    rw [if_neg (by omega)]
    exact ⟨_, rfl, ⟨hlw, hlr, hw, by simp only; omega, h.len, h.blk, fun _ => ⟨h1, by simp only; omega, h3, h5⟩, by simp⟩, rfl⟩

theorem Inv.frame {B : Nat} {q : Q} {fs fs' : Fs} {c : List Byte} (h : Inv B q fs c) (e : fs' q.name = fs q.name) : Inv B q fs' c := by
  have hc : cur q fs' = cur q fs := by unfold cur; rw [e]
  exact ⟨h.lw, h.lr, h.wi, h.ri, by rw [hc]; exact h.len, h.blk, h.syn, by rw [hc]; exact h.asy⟩

theorem init_inv {B : Nat} (hB : 0 < B) {j j' : List Byte} (hj : j.length = B) (hj' : j'.length = B) (dir : String) (c : Char) (pid : Nat) (fs : Fs) :
    Inv B (init j j' dir c pid) fs [] := by
  refine ⟨hj, hj', hB, hB, ?_, rfl, fun _ => ⟨rfl, Nat.le_refl _, by simp [init], by simp [init]⟩, by simp [init]⟩
  simp [cur, init]

theorem run_inv {B : Nat} (ops : List Op) : ∀ {q : Q} {fs : Fs} {c out : List Byte}, Inv B q fs c →
    (∀ s d, Op.other s d ∈ ops → s ≠ q.name) → fifo c ops = some out → run B q fs ops = some out := by
  induction ops with
  | nil => intro q fs c out _ _ e; simpa [fifo, run] using e
  | cons o l ih =>
    intro q fs c out h ho e
    cases o with
    | push x =>
      obtain ⟨q', fs', e1, h1, h2, -⟩ := push_inv h x
      simp only [run, e1]
      exact ih h1 (fun s d hm => by rw [h2]; exact ho s d (List.mem_cons_of_mem _ hm)) (by simpa only [fifo] using e)
    | pop =>
      cases c with
      | nil => simp [fifo] at e
      | cons x c =>
        obtain ⟨q', e1, h1, h2⟩ := pop_inv h
        simp only [fifo, Option.map_eq_some_iff] at e
        obtain ⟨o', e2, rfl⟩ := e
        simp only [run, e1]
        rw [ih h1 (fun s d hm => by rw [h2]; exact ho s d (List.mem_cons_of_mem _ hm)) e2]
        rfl
    | other s d =>
      simp only [run]
      refine ih (h.frame ?_) (fun s d hm => ho s d (List.mem_cons_of_mem _ hm)) (by cases c <;> simpa only [fifo] using e)
      unfold Fs.set
      rw [if_neg (fun hn => ho s d List.mem_cons_self hn.symm)]

theorem run2_inv {B : Nat} (ops : List (Bool × Op)) : ∀ {a b : Q} {fs : Fs} {c d : List Byte} {out : List (Bool × Byte)}, Inv B a fs c → Inv B b fs d →
    a.name ≠ b.name → (∀ w s t, (w, Op.other s t) ∈ ops → s ≠ a.name ∧ s ≠ b.name) → fifo2 c d ops = some out → run2 B a b fs ops = some out := by
  induction ops with
  | nil => intro a b fs c d out _ _ _ _ e; simpa [fifo2, run2] using e
  | cons o l ih =>
    intro a b fs c d out ha hb hn ho e
    have ho' : ∀ w s t, (w, Op.other s t) ∈ l → s ≠ a.name ∧ s ≠ b.name := fun w s t hm => ho w s t (List.mem_cons_of_mem _ hm)
    obtain ⟨w, o⟩ := o
    cases o with
    | push x =>
      cases w
      · obtain ⟨q', fs', e1, h1, h2, -, -, h3⟩ := push_inv ha x
        simp only [run2, Bool.false_eq_true, if_false, e1]
        exact ih h1 (hb.frame (h3 _ (Ne.symm hn))) (by rwa [h2]) (by rwa [h2]) (by simpa only [fifo2] using e)
      · obtain ⟨q', fs', e1, h1, h2, -, -, h3⟩ := push_inv hb x
        simp only [run2, if_true, e1]
        exact ih (ha.frame (h3 _ hn)) h1 (by rwa [h2]) (by rwa [h2]) (by simpa only [fifo2] using e)
    | pop =>
      cases w
      · cases c with
        | nil => simp [fifo2] at e
        | cons x c =>
          obtain ⟨q', e1, h1, h2⟩ := pop_inv ha
          simp only [fifo2, Option.map_eq_some_iff] at e
          obtain ⟨o', e2, rfl⟩ := e
          simp only [run2, Bool.false_eq_true, if_false, e1]
          rw [ih h1 hb (by rwa [h2]) (by rwa [h2]) e2]
          rfl
      · cases d with
        | nil => cases c <;> simp [fifo2] at e
        | cons x d =>
          obtain ⟨q', e1, h1, h2⟩ := pop_inv hb
          simp only [fifo2, Option.map_eq_some_iff] at e
          obtain ⟨o', e2, rfl⟩ := e
          simp only [run2, if_true, e1]
          rw [ih ha h1 (by rwa [h2]) (by rwa [h2]) e2]
          rfl
    | other s t =>
      simp only [run2]
      obtain ⟨h1, h2⟩ := ho w s t List.mem_cons_self
      refine ih (ha.frame ?_) (hb.frame ?_) hn ho' (by cases w <;> cases c <;> cases d <;> simpa only [fifo2] using e)
      · unfold Fs.set
        rw [if_neg (Ne.symm h1)]
      · unfold Fs.set
        rw [if_neg (Ne.symm h2)]

/-! ### Two queues with one file -/

/-- Pushing `n` times. -/
theorem run2_push {B : Nat} (w : Bool) (x : Byte) (l : List (Bool × Op)) : ∀ (n : Nat) {a b : Q} {fs : Fs} {c : List Byte},
    Inv B (if w then b else a) fs c → ∃ q' fs', Inv B q' fs' (c ++ List.replicate n x) ∧ q'.ridx = (if w then b else a).ridx ∧
      q'.rb = (if w then b else a).rb ∧ q'.name = (if w then b else a).name ∧
      run2 B a b fs (List.replicate n (w, .push x) ++ l) = if w then run2 B a q' fs' l else run2 B q' b fs' l := by
  intro n
  induction n with
  | zero =>
    intro a b fs c h
    exact ⟨_, fs, by simpa using h, rfl, rfl, rfl, by cases w <;> simp⟩
  | succ n ih =>
    intro a b fs c h
    obtain ⟨q1, fs1, e1, h1, h2, h3, h4, -⟩ := push_inv h x
    simp only [List.replicate_succ, List.cons_append, run2, e1]
    cases w
    · obtain ⟨q', fs', i1, i2, i3, i4, i5⟩ := ih (a := q1) (b := b) h1
      refine ⟨q', fs', by simpa using i1, i2.trans h3, i3.trans h4, i4.trans h2, ?_⟩
      simpa using i5
    · obtain ⟨q', fs', i1, i2, i3, i4, i5⟩ := ih (a := a) (b := q1) h1
      refine ⟨q', fs', by simpa using i1, i2.trans h3, i3.trans h4, i4.trans h2, ?_⟩
      simpa using i5

/-- A queue that holds two blocks: one in the read buffer, the other in the file. -/
theorem two_blocks {B : Nat} {q : Q} {fs : Fs} {x : Byte} (h : Inv B q fs (List.replicate (2 * B) x)) (h1 : q.ridx = 0) (h2 : q.rb = 0) :
    q.sync = false ∧ q.disk = 1 ∧ q.readBuf = List.replicate B x ∧ fs q.name = List.replicate B x := by
  have hw := h.wi
  have hlr := h.lr
  have hlw := h.lw
  have hs : q.sync = false := by
    refine Decidable.byContradiction fun hn => ?_
    have h4 := congrArg List.length (h.syn (by simpa using hn)).2.2.2
    rw [h1] at h4
    simp only [List.length_replicate, List.drop_zero, List.length_take] at h4
    omega
  have ha := h.asy hs
  rw [h1, h2] at ha
  simp only [Nat.mul_zero, List.drop_zero] at ha
  have hl := congrArg List.length ha
  simp only [List.length_replicate, List.length_append, List.length_take, h.len, hlr] at hl
  have hwb : q.wb = 1 := by
    rcases Nat.lt_trichotomy q.wb 1 with h5 | h5 | h5
    · rw [show q.wb = 0 by omega] at hl; omega
    · exact h5
    · have := Nat.mul_le_mul_left B (show 2 ≤ q.wb from h5); omega
  have hb := h.blk
  rw [hwb, Nat.mul_one] at hl
  have hw0 : q.widx = 0 := by omega
  rw [hw0, List.take_zero, List.append_nil] at ha
  have hc := h.len
  rw [hwb, Nat.mul_one] at hc
  rw [show 2 * B = B + B by omega, ← List.replicate_append_replicate] at ha
  obtain ⟨e1, e2⟩ := List.append_inj ha (by simp [hlr])
  refine ⟨hs, by omega, e1.symm, ?_⟩
  unfold cur at e2 hc
  split at e2
  · exact e2.symm
  · rename_i hn
    rw [if_neg hn] at hc
    simp only [List.length_nil] at hc
    omega

/-- Reading from the buffer. -/
theorem run2_pop {B : Nat} {x : Byte} {b : Q} {fs : Fs} (l : List (Bool × Op)) : ∀ (n : Nat) {a : Q}, a.readBuf = List.replicate B x → a.ridx + n < B →
    run2 B a b fs (List.replicate n (false, .pop) ++ l) = (run2 B { a with ridx := a.ridx + n } b fs l).map (List.replicate n (false, x) ++ ·) := by
  intro n
  induction n with
  | zero => intro a _ _; simp
  | succ n ih =>
    intro a h1 h2
    have e : pop B a fs = some (x, { a with ridx := a.ridx + 1 }) := by
      unfold pop
      rw [h1, List.getElem?_replicate, if_pos (by omega)]
      simp only
      rw [if_neg (by omega)]
    simp only [List.replicate_succ, List.cons_append, run2, Bool.false_eq_true, if_false, e]
    rw [ih (by exact h1) (by simp only; omega)]
    simp only [Option.map_map]
    rw [show a.ridx + (n + 1) = a.ridx + 1 + n by omega]
    rfl

/-- The first queue returns a byte of the second one. -/
theorem shared {B : Nat} (hB : 0 < B) {a b : Q} {fs : Fs} {x y : Byte} (hn : a.name = b.name) (ha : Inv B a fs (List.replicate (2 * B) x))
    (ha1 : a.ridx = 0) (ha2 : a.rb = 0) {fs' : Fs} (hb : Inv B b fs' (List.replicate (2 * B) y)) (hb1 : b.ridx = 0) (hb2 : b.rb = 0) :
    run2 B a b fs' (List.replicate (B + 1) (false, .pop)) = some (List.replicate B (false, x) ++ [(false, y)]) := by
  obtain ⟨a3, a4, a5, -⟩ := two_blocks ha ha1 ha2
  obtain ⟨-, -, -, b6⟩ := two_blocks hb hb1 hb2
  rw [show List.replicate (B + 1) (false, Op.pop) = List.replicate (B - 1) (false, Op.pop) ++ [(false, .pop), (false, .pop)] by
    rw [show B + 1 = (B - 1) + 2 by omega, ← List.replicate_append_replicate]; rfl]
  rw [run2_pop _ (B - 1) a5 (by omega)]
  have e1 : pop B { a with ridx := a.ridx + (B - 1) } fs' = some (x, { a with readBuf := List.replicate B y, rb := 1, disk := 0, ridx := 0 }) := by
    unfold pop readAt
    simp only [a5]
    rw [List.getElem?_replicate, if_pos (by omega)]
    simp only
    rw [if_pos (by omega), if_pos (by omega), hn, b6, ha2, a4, if_pos (by simp)]
    simp
  simp only [run2, Bool.false_eq_true, if_false, e1]
  have e2 : ∃ q', pop B { a with readBuf := List.replicate B y, rb := 1, disk := 0, ridx := 0 } fs' = some (y, q') := by
    unfold pop
    simp only
    rw [List.getElem?_replicate, if_pos hB]
    simp only
    have := ha.wi
    split
    · rw [if_neg (by omega), if_pos (by omega)]; exact ⟨_, rfl⟩
    · exact ⟨_, rfl⟩
  obtain ⟨q', e2⟩ := e2
  rw [e2]
  simp only [Option.map_some]
  rw [show List.replicate B (false, x) = List.replicate (B - 1) (false, x) ++ [(false, x)] by
    rw [← List.replicate_succ']; congr 1; omega]
  simp

end Sdsl.CharQueue
