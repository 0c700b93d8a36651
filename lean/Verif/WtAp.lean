/-
  The alphabet-partitioned wavelet tree `wt_ap` (wt_ap.hpp): the symbols are grouped by frequency into classes; one wavelet tree holds the class of every symbol of the alphabet,
  one the class of every position, and for every class with more than one possible symbol one holds the positions within the class.
  `buf` is the list of its first `size` symbols (`buf.size() < m_size` throws, wt_ap.hpp:116-119, and is not modelled); the temporary files are lists of numbers with the width of the file.
-/
import Verif.WtRlmn
import Mathlib.Data.List.Sort

namespace Sdsl.Csa.Ap

open _root_.Sdsl.Csa

/-- `char_freq`, `max_symbol` and `pseudo_entries`, wt_ap.hpp:125-127. -/
structure Freq where
  cf : List (Nat × Nat)
  maxSym : Nat
  pseudo : Nat

/-- `while (element >= max_symbol) { … }`, wt_ap.hpp:132-136. Every iteration uses one unit of `fuel`. -/
def grow (c : Nat) : Nat → Freq → Option Freq
  | fuel, s =>
    if s.maxSym ≤ c then match fuel with
      | 0 => none
      | fuel + 1 => grow c fuel ⟨s.cf ++ [(0, s.maxSym)], add64 s.maxSym 1, add64 s.pseudo 1⟩
    else some s

/-- The loop over the text, wt_ap.hpp:130-141. -/
def freqLoop : List Nat → Freq → Option Freq
  | [], s => some s
  | c :: cs, s => do
    let s ← grow c (c + 1) s
    let e ← s.cf[c]?
    let p := if e.1 = 0 then sub64 s.pseudo 1 else s.pseudo
    freqLoop cs ⟨s.cf.set c (add64 e.1 1, e.2), s.maxSym, p⟩

/-- `a ≥ b` in the order of `std::pair`. -/
def pairGe (a b : Nat × Nat) : Bool := decide (b.1 < a.1 ∨ (b.1 = a.1 ∧ b.2 ≤ a.2))

/-- `std::sort(char_freq.rbegin(), char_freq.rend())`, wt_ap.hpp:142: decreasing order. -/
def sortDesc (cf : List (Nat × Nat)) : List (Nat × Nat) := cf.insertionSort (fun a b => pairGe a b = true)

/-- `bits::hi(n)`. -/
def hiN (n : Nat) : Option Nat := Bits.hi (BitVec.ofNat 64 n)

/-- `m_char2class_buffer[char_freq[i].second] = i` for the singleton classes, wt_ap.hpp:153-155, `k` iterations from `i`. -/
def singleLoop (cf : List (Nat × Nat)) : Nat → Nat → Arr → Option Arr
  | 0, _, b => some b
  | k + 1, i, b => do
    let e ← cf[i]?
    let b ← b.set e.2 i
    singleLoop cf k (i + 1) b

/-- `for (; offset < class_size && current_symbol < m_sigma; ++offset, ++current_symbol)`, wt_ap.hpp:163-165, with `k = class_size - offset` iterations left. -/
def memberLoop (cf : List (Nat × Nat)) (sigma i : Nat) : Nat → Nat → Nat → Arr → Option (Nat × Nat × Arr)
  | 0, off, cur, b => some (off, cur, b)
  | k + 1, off, cur, b =>
    if cur < sigma then do
      let e ← cf[cur]?
      let b ← b.set e.2 i
      memberLoop cf sigma i k (add64 off 1) (add64 cur 1) b
    else some (off, cur, b)

/-- The width of the file of a class, wt_ap.hpp:174: 8 bits for a wavelet tree over bytes. -/
def offWidth (byte : Bool) (off : Nat) : Option Nat := if byte then some 8 else hiW off

/-- `for (value_type i=m_singleton_class_cnt; i < m_class_cnt; ++i)`, wt_ap.hpp:160-175, `k` iterations from `i`; `ws` are the widths of the files of the classes. -/
def classLoop (byteI : Bool) (cf : List (Nat × Nat)) (sigma : Nat) : Nat → Nat → Nat → Nat → Arr → List Nat → Option (Arr × List Nat)
  | 0, _, _, _, b, ws => some (b, ws)
  | k + 1, i, cur, size, b, ws => do
    let size := (size * 2) % 2 ^ 64
    let (off, cur, b) ← memberLoop cf sigma i size 0 cur b
    let w ← offWidth byteI off
    classLoop byteI cf sigma k (i + 1) cur size b (ws ++ [w])

/-- `temp_file_offset_buffers[cl].second.push_back(offset)`, wt_ap.hpp:195. -/
def pushOff (offs : List (Nat × List Nat)) (j x : Nat) : Option (List (Nat × List Nat)) := do
  let (w, f) ← offs[j]?
  pure (offs.set j (w, f ++ [x % 2 ^ w]))

/-- `if (cl >= m_singleton_class_cnt) { … }`, wt_ap.hpp:192-196. -/
def offStep (c2c : Csa.Wt) (single ch cl : Nat) (offs : List (Nat × List Nat)) : Option (List (Nat × List Nat)) :=
  if single ≤ cl then do
    let x ← c2c.rank ch cl
    pushOff offs (sub64 cl single) x
  else some offs

/-- The second loop over the text, wt_ap.hpp:188-197. `w` is the width of `class_buffer`. -/
def textLoop (b : Arr) (c2c : Csa.Wt) (single w : Nat) : List Nat → List Nat → List (Nat × List Nat) → Option (List Nat × List (Nat × List Nat))
  | [], cls, offs => some (cls, offs)
  | ch :: cs, cls, offs => do
    let cl ← b.get ch
    let offs ← offStep c2c single ch cl offs
    textLoop b c2c single w cs (cls ++ [cl % 2 ^ w]) offs

/-- The members of a `wt_ap`, wt_ap.hpp:68-74. -/
structure Obj where
  size : Nat
  sigma : Nat
  single : Nat
  classCnt : Nat
  char2class : Csa.Wt
  cls : Csa.Wt
  offset : List Csa.Wt

/-- A width of a fixed-width or a variable-width `int_vector`. -/
def vecWidth (byte : Bool) (n : Nat) : Option Nat := if byte then some 8 else hiW n

/-- The constructor after the counting, wt_ap.hpp:146-219. -/
def build (byteB byteI : Bool) (mkB mkI : List Nat → Option Csa.Wt) (text : List Nat) (cf : List (Nat × Nat)) (maxSym sigma : Nat) : Option Obj := do
  let hs ← hiN sigma
  let single := min maxSym hs
  let hc ← hiN (add64 (sub64 sigma single) 1)
  let classCnt := add64 hc single
  let w1 ← vecWidth byteB (add64 classCnt 1)
  let b ← singleLoop cf single 0 (Arr.new maxSym classCnt w1)
  let (b, ws) ← classLoop byteI cf sigma (sub64 classCnt single) single single 1 b []
  let c2c ← mkB b.xs
  let w2 ← vecWidth byteB classCnt
  let (cls, offs) ← textLoop b c2c single w2 text [] (ws.map (fun w => (w, [])))
  let cw ← mkB cls
  let ows ← offs.mapM (fun o => mkI o.2)
  pure ⟨text.length, sigma, single, classCnt, c2c, cw, ows⟩

/-- `wt_ap(buf, size)`, wt_ap.hpp:114-220. `byteB` and `byteI`: the width of the alphabets of `t_wt_byte` and `t_wt_int` is 8; `mkB` and `mkI` are their constructors. For an empty text no loop runs and all wavelet trees are built from empty sequences. -/
def new (byteB byteI : Bool) (mkB mkI : List Nat → Option Csa.Wt) (text : List Nat) : Option Obj :=
  if text.length = 0 then some ⟨0, 0, 0, 0, Rlmn.emptyWt, Rlmn.emptyWt, []⟩
  else do
    let s ← freqLoop text ⟨[], 0, 0⟩
    build byteB byteI mkB mkI text (sortDesc s.cf) s.maxSym (sub64 s.maxSym s.pseudo)

/-- `try_get_char_class_offset(c)`, wt_ap.hpp:90-100; `none` in the result if the symbol does not occur. -/
def classOffset (t : Obj) (c : Nat) : Option (Option (Nat × Nat)) :=
  if t.char2class.size ≤ c then some none else do
    let oc ← t.char2class.inverseSelect c
    if oc.2 = t.classCnt then pure none else pure (some (oc.2, oc.1))

/-- `m_offset[cl-m_singleton_class_cnt]`. -/
def offAt (t : Obj) (cl : Nat) : Option Csa.Wt := t.offset[sub64 cl t.single]?

/-- `operator[]`, wt_ap.hpp:294-303. -/
def get (t : Obj) (i : Nat) : Option Nat := do
  let tc ← t.cls.inverseSelect i
  let off ← if tc.2 < t.single then some 0 else do
    let w ← offAt t tc.2
    w.get tc.1
  t.char2class.select (add64 off 1) tc.2

/-- `rank(i, c)`, wt_ap.hpp:317-330. -/
def rank (t : Obj) (i c : Nat) : Option Nat := do
  let co ← classOffset t c
  match co with
  | none => pure 0
  | some (cl, off) => do
    let count ← t.cls.rank i cl
    if cl < t.single then pure count else do
      let w ← offAt t cl
      w.rank count off

/-- `inverse_select(i)`, wt_ap.hpp:339-352. -/
def inverseSelect (t : Obj) (i : Nat) : Option (Nat × Nat) := do
  let tc ← t.cls.inverseSelect i
  if tc.2 < t.single then do
    let c ← t.char2class.select 1 tc.2
    pure (tc.1, c)
  else do
    let w ← offAt t tc.2
    let r ← w.inverseSelect tc.1
    let c ← t.char2class.select (add64 r.2 1) tc.2
    pure (r.1, c)

/-- `select(i, c)`, wt_ap.hpp:365-378. -/
def select (t : Obj) (i c : Nat) : Option Nat := do
  let co ← classOffset t c
  match co with
  | none => pure t.size
  | some (cl, off) => do
    let k ← if cl < t.single then some i else do
      let w ← offAt t cl
      let x ← w.select i off
      pure (add64 1 x)
    t.cls.select k cl

/-- The interface of a `wt_ap`; it has no `lex_count` (`lex_ordered=0`, wt_ap.hpp:64). -/
def wt (t : Obj) : Csa.Wt := ⟨t.size, get t, rank t, select t, inverseSelect t, fun _ _ _ => none⟩

end Sdsl.Csa.Ap
