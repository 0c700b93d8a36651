/-
  Construction of LCP arrays: include/sdsl/construct_lcp.hpp and lib/construct_lcp.cpp.

  The files of the cache are lists; reading and writing through `int_vector_buffer` (C51) is reading and appending values that are truncated to the width of the file.
  Indices and lengths are natural numbers: every sum `i + l` is compared with the length of the text when the text is read, so it never exceeds the length.
-/
import Verif.Csa

namespace Sdsl.Lcp

/-- `while (text[i+l] == text[j+l]) ++l;` (construct_lcp.hpp:82-84, 151-153, lib/construct_lcp.cpp:50-51, 77-78). There is no bounds check: a read behind the end of the text is
    undefined behaviour. `fuel` bounds the number of iterations; as `i + l` grows it cannot run out before a read fails when it starts as the length of the text. -/
def extend (text : List Nat) (i j : Nat) : Nat → Nat → Option Nat
  | 0, _ => none
  | fuel + 1, l => do
    let a ← text[i + l]?
    let b ← text[j + l]?
    if a = b then extend text i j fuel (l + 1) else some l

/-! ### construct_lcp_kasai -/

/-- The loop of `construct_lcp_kasai`, construct_lcp.hpp:75-92; `n = isa_buf.size()`, `k` iterations remain. -/
def kasaiLoop (text : List Nat) (isa : Arr) (n : Nat) : Nat → Nat → Nat → Arr → Option Arr
  | 0, _, _, sa => some sa
  | k + 1, i, l, sa => do
    let sa1 ← isa.get i
    if sa1 ≠ 0 then
      let j ← sa.get (sa1 - 1)
      let l ← extend text i j text.length (if l ≠ 0 then l - 1 else l)
      let sa ← sa.set (sa1 - 1) l
      kasaiLoop text isa n k (i + 1) l sa
    else
      let sa ← sa.set (n - 1) 0
      kasaiLoop text isa n k (i + 1) 0 sa

/-- `for (size_type i=sa.size(); i>1; --i) sa[i-1] = sa[i-2];`, construct_lcp.hpp:94-96; the argument is `i - 1`. -/
def shiftLoop : Nat → Arr → Option Arr
  | 0, sa => some sa
  | i + 1, sa => do
    let v ← sa.get i
    let sa ← sa.set (i + 1) v
    shiftLoop i sa

/-- `construct_lcp_kasai`, construct_lcp.hpp:64-101. -/
def constructKasai (text : List Nat) (sa : Arr) : Option Arr := do
  let isa ← Csa.constructIsa sa.xs
  let n := isa.xs.length
  let sa ← kasaiLoop text isa n n 0 0 sa
  let sa ← shiftLoop (sa.xs.length - 1) sa
  sa.set 0 0

/-! ### construct_lcp_PHI -/

/-- Step (1), construct_lcp.hpp:139-143: `plcp[sa[i]] = sa[i-1]` (and 0 for `i = 0`). The list is the rest of the suffix array. -/
def phiLoop : List Nat → Nat → Arr → Option Arr
  | [], _, plcp => some plcp
  | sai :: r, sai1, plcp => do
    let plcp ← plcp.set sai sai1
    phiLoop r sai plcp

/-- Step (3), construct_lcp.hpp:150-160; `k` iterations remain. Returns `plcp` and `max_l`. -/
def plcpLoop (text : List Nat) : Nat → Nat → Nat → Nat → Arr → Option (Arr × Nat)
  | 0, _, _, maxl, plcp => some (plcp, maxl)
  | k + 1, i, l, maxl, plcp => do
    let phii ← plcp.get i
    let l ← extend text i phii text.length l
    let plcp ← plcp.set i l
    if l ≠ 0 then plcpLoop text k (i + 1) (l - 1) (max maxl l) plcp else plcpLoop text k (i + 1) l maxl plcp

/-- `construct_lcp_PHI`, construct_lcp.hpp:120-180. The buffer of width `lcp_width` grows by one with every write. -/
def constructPHI (text : List Nat) (sa : Arr) : Option Arr :=
  let n := sa.xs.length
  if n = 1 then some (Arr.new 1 0 64)
  else do
    let plcp ← phiLoop sa.xs 0 (Arr.new n 0 sa.width)
    let (plcp, maxl) ← plcpLoop text (n - 1) 0 0 0 plcp
    let h ← Bits.hi (BitVec.ofNat 64 maxl)
    let lcpWidth := h + 1
    let vals ← (sa.xs.drop 1).mapM (fun sai => plcp.get sai)
    some ⟨lcpWidth, 0 :: vals.map (· % 2 ^ lcpWidth)⟩

/-! ### construct_lcp_semi_extern_PHI -/

/-- lib/construct_lcp.cpp:31-43: every 64th entry of PHI. -/
def sphiLoop : List Nat → Nat → Arr → Option Arr
  | [], _, plcp => some plcp
  | sai :: r, sai1, plcp =>
    if sai % 64 = 0 then do
      let plcp ← plcp.set (sai / 64) sai1
      sphiLoop r sai plcp
    else sphiLoop r sai plcp

/-- lib/construct_lcp.cpp:48-59; `k` iterations remain. -/
def splcpLoop (text : List Nat) : Nat → Nat → Nat → Arr → Option Arr
  | 0, _, _, plcp => some plcp
  | c + 1, i, l, plcp => do
    let k ← plcp.get i
    let l ← extend text (i * 64) k text.length l
    let plcp ← plcp.set i l
    splcpLoop text c (i + 1) (if l ≥ 64 then l - 64 else 0) plcp

/-- lib/construct_lcp.cpp:65-91: the values that are written. -/
def slcpLoop (text : List Nat) (plcp : Arr) : List Nat → Nat → Option (List Nat)
  | [], _ => some []
  | sai :: r, sai1 => do
    let l0 ← plcp.get (sai / 64)
    let l ← if sai % 64 = 0 then some l0
      else
        let iq := sai / 64 * 64
        extend text sai sai1 text.length (if l0 > sai - iq then l0 - (sai - iq) else 0)
    let rest ← slcpLoop text plcp r sai
    some (l :: rest)

/-- `construct_lcp_semi_extern_PHI`, lib/construct_lcp.cpp:14-95. -/
def constructSemiExtern (text : List Nat) (sa : Arr) : Option Arr :=
  let n := sa.xs.length
  if n = 1 then some (Arr.new 1 0 64)
  else do
    let plcp ← sphiLoop sa.xs 0 (Arr.new ((n - 1 + 64) / 64) 0 64)
    let plcp ← splcpLoop text plcp.xs.length 0 0 plcp
    let vals ← slcpLoop text plcp sa.xs 0
    some ⟨sa.width, vals.map (· % 2 ^ sa.width)⟩

end Sdsl.Lcp
