/-
  Model of the compressed vectors `enc_vector` (include/sdsl/enc_vector.hpp) and `vlc_vector` (include/sdsl/vlc_vector.hpp).

  The coder is a template parameter: `VC` has the functions of it that the two classes call. Containers are lists of words
  together with `tw`, the number of bits of `Container::value_type` (8, 16, 32 or 64). The arithmetic of C++ on these types is
  modelled: 8- and 16-bit operands are promoted to `int`, 32-bit operands wrap modulo 2^32, 64-bit operands modulo 2^64.
  The samples and pointers are an `Arr`, the code memory is a list of words; `m_size` is the number of elements.
  Simplified: `m_z` after construction has `(bits+64)/64` words (`memory_manager::resize`, see `IntVec.bitResize`);
  the two loops of the constructors run over the list instead of iterators.
-/
import Verif.Arr
import Verif.Coder
import Verif.Fib

namespace Sdsl

/-- The functions of a coder class used by `enc_vector` and `vlc_vector`. -/
structure VC where
  /-- `encoding_length(w)` -/
  encLen : Word → Option Nat
  /-- `encode(w, z, offset)` at word `p`, bit `off` -/
  encode1 : Mem → Nat → Nat → Word → Option (Mem × Nat × Nat)
  /-- `decode<false,false>(d, start, n)` -/
  last : Mem → Nat → Nat → Option Word
  /-- `decode<true,true>(d, start, n, it)`: the values written to `it` -/
  sums : Mem → Nat → Nat → Option (List Word)
  /-- `decode_prefix_sum(d, start, n)` -/
  psum : Mem → Nat → Nat → Option Word

/-- `coder::elias_gamma` and `coder::elias_delta` (`sh` is the outcome of `1ULL<<64`, see `Coder`). -/
def VC.elias (sh : Option Word) (c : Coder.Code) : VC where
  encLen := c.encLen
  encode1 := c.encode1
  last m s n := (Coder.decode c false sh m s n).map (·.1)
  sums m s n := (Coder.decode c true sh m s n).map (·.2)
  psum m s n := Coder.prefixSum c sh m s n

/-- `coder::comma<t>`. -/
def VC.comma (t : Nat) : VC where
  encLen := (Coder.comma t).encLen
  encode1 := (Coder.comma t).encode1
  last m s n := (Coder.decode (Coder.comma t) false none m s n).map (·.1)
  sums m s n := (Coder.decode (Coder.comma t) true none m s n).map (·.2)
  psum m s n := Coder.commaPrefixSum t m s n

/-- `coder::fibonacci`. -/
def VC.fib : VC where
  encLen := Fib.encLen
  encode1 := Fib.encode1
  last m s n := (Fib.decode false m s n).map (·.1)
  sums m s n := (Fib.decode true m s n).map (·.2)
  psum := Fib.prefixSum

namespace Enc

/-- `v2-v1` as argument of `encoding_length(uint64_t)` and `encode(uint64_t, ..)`, enc_vector.hpp:237,276, for operands of `tw` bits:
    `int` for 8 and 16 bits (sign-extended), modulo 2^32 for 32 bits, modulo 2^64 for 64 bits. -/
def diff (tw : Nat) (v2 v1 : Word) : Word := if tw = 32 then BitVec.ofNat 64 ((v2 - v1).toNat % 2 ^ 32) else v2 - v1

/-- `x = v2-v1` with `x` of the value type, enc_vector.hpp:259. -/
def diffX (tw : Nat) (v2 v1 : Word) : Word := BitVec.ofNat 64 ((v2 - v1).toNat % 2 ^ tw)

/-- An `enc_vector`: code memory, its size in bits (`m_z.bit_size()`), samples and pointers, number of elements. -/
structure Vec where
  z : Mem
  zbits : Nat
  sp : Arr
  size : Nat
deriving DecidableEq, Repr

/-- Pass 1, enc_vector.hpp:230-240: largest sample, number of samples, number of code bits. The second argument is `no_sample`. -/
def pass1 (c : VC) (tw dens : Nat) : List Word → Nat → Word → Word → Nat → Nat → Option (Word × Nat × Nat)
  | [], _, _, mx, s, z => some (mx, s, z)
  | v2 :: l, 0, _, mx, s, z => pass1 c tw dens l (dens - 1) v2 (if mx < v2 then v2 else mx) (s + 1) z
  | v2 :: l, k + 1, v1, mx, s, z => do
    let n ← c.encLen (diff tw v2 v1)
    pass1 c tw dens l k v2 mx s (z + n)

/-- Width of the samples and pointers, enc_vector.hpp:243-246; `sw = 0` for `int_vector<0>`, otherwise the fixed width (32 or 64),
    which `width()` does not change. -/
def sampleWidth (sw : Nat) (mx : Word) (z : Nat) : Option Nat :=
  if sw ≠ 0 then some sw
  else if mx.toNat > z + 1 then do
    let h ← Bits.hi mx
    pure (h + 1)
  else do
    let h ← Bits.hi (BitVec.ofNat 64 (z + 1))
    pure (h + 1)

/-- Pass 2, enc_vector.hpp:252-263: writes samples and pointers from entry `j` on. -/
def pass2 (c : VC) (tw dens : Nat) : List Word → Nat → Word → Arr → Nat → Nat → Option (Arr × Nat × Nat)
  | [], _, _, sp, j, z => some (sp, j, z)
  | v2 :: l, 0, _, sp, j, z => do
    let sp ← sp.set j v2.toNat
    let sp ← sp.set (j + 1) z
    pass2 c tw dens l (dens - 1) v2 sp (j + 2) z
  | v2 :: l, k + 1, v1, sp, j, z => do
    let n ← c.encLen (diffX tw v2 v1)
    pass2 c tw dens l k v2 sp j (z + n)

/-- Pass 3, enc_vector.hpp:271-279: writes the codes. -/
def pass3 (c : VC) (tw dens : Nat) : List Word → Nat → Word → Mem → Nat → Nat → Option Mem
  | [], _, _, m, _, _ => some m
  | v2 :: l, 0, _, m, p, off => pass3 c tw dens l (dens - 1) v2 m p off
  | v2 :: l, k + 1, v1, m, p, off => do
    let r ← c.encode1 m p off (diff tw v2 v1)
    pass3 c tw dens l k v2 r.1 r.2.1 r.2.2

/-- `enc_vector(const Container& c)`, enc_vector.hpp:216-282. -/
def construct (c : VC) (tw dens sw : Nat) (xs : List Word) : Option Vec :=
  match xs with
  | [] => some ⟨[0#64], 0, ⟨if sw = 0 then 64 else sw, []⟩, 0⟩
  | x :: _ => do
    let r ← pass1 c tw dens xs 0 x 0#64 0 0
    let w ← sampleWidth sw r.1 r.2.2
    let q ← pass2 c tw dens xs 0 x ⟨w, List.replicate (2 * r.2.1 + 2) 0⟩ 0 0
    let sp ← q.1.set q.2.1 0
    let sp ← sp.set (q.2.1 + 1) (q.2.2 + 1)
    let m ← pass3 c tw dens xs 0 x (List.replicate ((q.2.2 + 64) / 64) 0#64) 0 0
    pure ⟨m, q.2.2, sp, xs.length⟩

/-- The second loop of the buffer constructor, enc_vector.hpp:325-336. -/
def passBuf (c : VC) (dens : Nat) : List Word → Nat → Word → Arr → Nat → Nat → Mem → Nat → Nat → Option (Arr × Nat × Mem)
  | [], _, _, sp, _, z, m, _, _ => some (sp, z, m)
  | v2 :: l, 0, _, sp, j, z, m, p, off => do
    let sp ← sp.set j v2.toNat
    let sp ← sp.set (j + 1) z
    passBuf c dens l (dens - 1) v2 sp (j + 2) z m p off
  | v2 :: l, k + 1, v1, sp, j, z, m, p, off => do
    let n ← c.encLen (v2 - v1)
    let r ← c.encode1 m p off (v2 - v1)
    passBuf c dens l k v2 sp j (z + n) r.1 r.2.1 r.2.2

/-- `enc_vector(int_vector_buffer<w>& v_buf)`, enc_vector.hpp:284-338 (all arithmetic is 64-bit here). `xs` are the elements of the buffer. -/
def constructBuf (c : VC) (dens sw : Nat) (xs : List Word) : Option Vec :=
  if xs = [] then some ⟨[0#64], 0, ⟨if sw = 0 then 64 else sw, []⟩, 0⟩
  else do
    let r ← pass1 c 64 dens xs 0 0#64 0#64 0 0
    let w ← sampleWidth sw r.1 r.2.2
    let q ← passBuf c dens xs 0 0#64 ⟨w, List.replicate (2 * r.2.1 + 2) 0⟩ 0 0 (List.replicate ((r.2.2 + 64) / 64) 0#64) 0 0
    pure ⟨q.2.2, r.2.2, q.1, xs.length⟩

/-- `operator[]`, enc_vector.hpp:189-196. `pad` are words readable behind the allocation of `m_z` (normally none). -/
def get (c : VC) (dens : Nat) (e : Vec) (pad : List Word) (i : Nat) : Option Word := do
  let idx := i / dens
  let s ← e.sp.get (2 * idx)
  let p ← e.sp.get (2 * idx + 1)
  let v ← c.psum (e.z ++ pad) p (i - dens * idx)
  pure (BitVec.ofNat 64 s + v)

/-- `sample(i)`, enc_vector.hpp:198-204. -/
def sample (e : Vec) (i : Nat) : Option Word := do
  let s ← e.sp.get (2 * i)
  pure (BitVec.ofNat 64 s)

/-- `get_inter_sampled_values(i, it)`, enc_vector.hpp:177-186: the values written to `it`. -/
def inter (c : VC) (dens : Nat) (e : Vec) (i : Nat) : Option (List Word) := do
  let p ← e.sp.get (2 * i + 1)
  let l ← c.sums e.z p (if i * dens + dens - 1 < e.size then dens - 1 else e.size - i * dens - 1)
  pure (0#64 :: l)

end Enc

namespace Vlc

/-- `c[i]+1` as argument of the coder, vlc_vector.hpp:199-202, for elements of `tw` bits. -/
def inc (tw : Nat) (x : Word) : Word := if tw = 32 then BitVec.ofNat 64 ((x + 1#64).toNat % 2 ^ 32) else x + 1#64

/-- A `vlc_vector`: code memory, its size in bits, pointers, number of elements. -/
structure Vec where
  z : Mem
  zbits : Nat
  sp : Arr
  size : Nat
deriving DecidableEq, Repr

/-- Pass 1, vlc_vector.hpp:198-203: the number of code bits, or the exception. -/
def pass1 (c : VC) (tw : Nat) : List Word → Nat → Option (Except String Nat)
  | [], z => some (.ok z)
  | x :: l, z =>
    if (inc tw x).toNat < 1 then some (.error "vlc_vector cannot decode values smaller than 1!")
    else do
      let n ← c.encLen (inc tw x)
      pass1 c tw l (z + n)

/-- Assignment of a pointer, vlc_vector.hpp:214-217; first component: `no_sample` at the end of the iteration (before `--no_sample`). -/
def point (dens : Nat) (k : Nat) (sp : Arr) (j z : Nat) : Option (Nat × Arr × Nat) :=
  if k = 0 then do
    let sp ← sp.set j z
    pure (dens, sp, j + 1)
  else some (k, sp, j)

/-- Pass 2, vlc_vector.hpp:213-220. -/
def pass2 (c : VC) (tw dens : Nat) : List Word → Nat → Arr → Nat → Nat → Mem → Nat → Nat → Option (Arr × Mem)
  | [], _, sp, _, _, m, _, _ => some (sp, m)
  | x :: l, k, sp, j, z, m, p, off => do
    let q ← point dens k sp j z
    let r ← c.encode1 m p off (inc tw x)
    let n ← c.encLen (inc tw x)
    pass2 c tw dens l (q.1 - 1) q.2.1 q.2.2 (z + n) r.1 r.2.1 r.2.2

/-- `vlc_vector(const Container& c)`, vlc_vector.hpp:188-222, and `vlc_vector(int_vector_buffer<w>&)`, vlc_vector.hpp:224-264 (which is
    the case `tw = 64`). `junk` is the content of the fresh memory of `m_z`. Only `t_width = 0`: for `t_width = 32` the assignment of an
    `int_vector<>` to the `int_vector<32>` member in vlc_vector.hpp:206 has no matching operator. -/
def construct (c : VC) (tw dens : Nat) (junk : Nat → Word) (xs : List Word) : Option (Except String Vec) :=
  if xs = [] then some (.ok ⟨[junk 0], 0, ⟨64, []⟩, 0⟩)
  else do
    match ← pass1 c tw xs 0 with
    | .error e => some (.error e)
    | .ok zb => do
      let h ← Bits.hi (BitVec.ofNat 64 (zb + 1))
      let samples := (xs.length + dens - 1) / dens
      let q ← pass2 c tw dens xs 0 ⟨h + 1, List.replicate (samples + 1) 0⟩ 0 0 ((List.range ((zb + 64) / 64)).map junk) 0 0
      pure (.ok ⟨q.2, zb, q.1, xs.length⟩)

/-- `operator[]`, vlc_vector.hpp:168-175. -/
def get (c : VC) (dens : Nat) (e : Vec) (i : Nat) : Option Word := do
  let idx := i / dens
  let p ← e.sp.get idx
  let v ← c.last e.z p (i - dens * idx + 1)
  pure (v - 1#64)

end Vlc

end Sdsl
