/-
  Constant tables of `sdsl::bits`, copied literally from /repo/lib/bits.cpp.
-/
import Verif.Basic

namespace Sdsl.Bits

/-- `bits::lt_cnt`, lib/bits.cpp:22-55. -/
def ltCnt : List Nat := [
  0, 1, 1, 2, 1, 2, 2, 3, 1, 2, 2, 3, 2, 3, 3, 4, 1, 2, 2, 3, 2, 3, 3, 4, 2, 3, 3, 4, 3, 4, 4, 5,
  1, 2, 2, 3, 2, 3, 3, 4, 2, 3, 3, 4, 3, 4, 4, 5, 2, 3, 3, 4, 3, 4, 4, 5, 3, 4, 4, 5, 4, 5, 5, 6,
  1, 2, 2, 3, 2, 3, 3, 4, 2, 3, 3, 4, 3, 4, 4, 5, 2, 3, 3, 4, 3, 4, 4, 5, 3, 4, 4, 5, 4, 5, 5, 6,
  2, 3, 3, 4, 3, 4, 4, 5, 3, 4, 4, 5, 4, 5, 5, 6, 3, 4, 4, 5, 4, 5, 5, 6, 4, 5, 5, 6, 5, 6, 6, 7,
  1, 2, 2, 3, 2, 3, 3, 4, 2, 3, 3, 4, 3, 4, 4, 5, 2, 3, 3, 4, 3, 4, 4, 5, 3, 4, 4, 5, 4, 5, 5, 6,
  2, 3, 3, 4, 3, 4, 4, 5, 3, 4, 4, 5, 4, 5, 5, 6, 3, 4, 4, 5, 4, 5, 5, 6, 4, 5, 5, 6, 5, 6, 6, 7,
  2, 3, 3, 4, 3, 4, 4, 5, 3, 4, 4, 5, 4, 5, 5, 6, 3, 4, 4, 5, 4, 5, 5, 6, 4, 5, 5, 6, 5, 6, 6, 7,
  3, 4, 4, 5, 4, 5, 5, 6, 4, 5, 5, 6, 5, 6, 6, 7, 4, 5, 5, 6, 5, 6, 6, 7, 5, 6, 6, 7, 6, 7, 7, 8]

/-- `bits::lt_deBruijn_to_idx`, lib/bits.cpp:59-68. -/
def ltDeBruijnToIdx : List Nat := [
  0, 1, 2, 7, 3, 13, 8, 19, 4, 25, 14, 28, 9, 34, 20, 40, 5, 17, 26, 38, 15, 46, 29, 48, 10, 31, 35, 54, 21, 50, 41, 57,
  63, 6, 12, 18, 24, 27, 33, 39, 16, 37, 45, 47, 30, 53, 49, 56, 62, 11, 23, 32, 36, 44, 52, 55, 61, 22, 43, 51, 60, 42, 59, 58]

/-- `bits::lt_hi`, lib/bits.cpp:70-87. -/
def ltHi : List Nat := [
  0, 0, 1, 1, 2, 2, 2, 2, 3, 3, 3, 3, 3, 3, 3, 3, 4, 4, 4, 4, 4, 4, 4, 4, 4, 4, 4, 4, 4, 4, 4, 4,
  5, 5, 5, 5, 5, 5, 5, 5, 5, 5, 5, 5, 5, 5, 5, 5, 5, 5, 5, 5, 5, 5, 5, 5, 5, 5, 5, 5, 5, 5, 5, 5,
  6, 6, 6, 6, 6, 6, 6, 6, 6, 6, 6, 6, 6, 6, 6, 6, 6, 6, 6, 6, 6, 6, 6, 6, 6, 6, 6, 6, 6, 6, 6, 6,
  6, 6, 6, 6, 6, 6, 6, 6, 6, 6, 6, 6, 6, 6, 6, 6, 6, 6, 6, 6, 6, 6, 6, 6, 6, 6, 6, 6, 6, 6, 6, 6,
  7, 7, 7, 7, 7, 7, 7, 7, 7, 7, 7, 7, 7, 7, 7, 7, 7, 7, 7, 7, 7, 7, 7, 7, 7, 7, 7, 7, 7, 7, 7, 7,
  7, 7, 7, 7, 7, 7, 7, 7, 7, 7, 7, 7, 7, 7, 7, 7, 7, 7, 7, 7, 7, 7, 7, 7, 7, 7, 7, 7, 7, 7, 7, 7,
  7, 7, 7, 7, 7, 7, 7, 7, 7, 7, 7, 7, 7, 7, 7, 7, 7, 7, 7, 7, 7, 7, 7, 7, 7, 7, 7, 7, 7, 7, 7, 7,
  7, 7, 7, 7, 7, 7, 7, 7, 7, 7, 7, 7, 7, 7, 7, 7, 7, 7, 7, 7, 7, 7, 7, 7, 7, 7, 7, 7, 7, 7, 7, 7]

/-- `bits::lo_set`, lib/bits.cpp:89-155. -/
def loSetTab : List Word := [
  0x0#64, 0x1#64, 0x3#64, 0x7#64,
  0xf#64, 0x1f#64, 0x3f#64, 0x7f#64,
  0xff#64, 0x1ff#64, 0x3ff#64, 0x7ff#64,
  0xfff#64, 0x1fff#64, 0x3fff#64, 0x7fff#64,
  0xffff#64, 0x1ffff#64, 0x3ffff#64, 0x7ffff#64,
  0xfffff#64, 0x1fffff#64, 0x3fffff#64, 0x7fffff#64,
  0xffffff#64, 0x1ffffff#64, 0x3ffffff#64, 0x7ffffff#64,
  0xfffffff#64, 0x1fffffff#64, 0x3fffffff#64, 0x7fffffff#64,
  0xffffffff#64, 0x1ffffffff#64, 0x3ffffffff#64, 0x7ffffffff#64,
  0xfffffffff#64, 0x1fffffffff#64, 0x3fffffffff#64, 0x7fffffffff#64,
  0xffffffffff#64, 0x1ffffffffff#64, 0x3ffffffffff#64, 0x7ffffffffff#64,
  0xfffffffffff#64, 0x1fffffffffff#64, 0x3fffffffffff#64, 0x7fffffffffff#64,
  0xffffffffffff#64, 0x1ffffffffffff#64, 0x3ffffffffffff#64, 0x7ffffffffffff#64,
  0xfffffffffffff#64, 0x1fffffffffffff#64, 0x3fffffffffffff#64, 0x7fffffffffffff#64,
  0xffffffffffffff#64, 0x1ffffffffffffff#64, 0x3ffffffffffffff#64, 0x7ffffffffffffff#64,
  0xfffffffffffffff#64, 0x1fffffffffffffff#64, 0x3fffffffffffffff#64, 0x7fffffffffffffff#64,
  0xffffffffffffffff#64]

/-- `bits::lo_unset`, lib/bits.cpp:157-223. -/
def loUnsetTab : List Word := [
  0xffffffffffffffff#64, 0xfffffffffffffffe#64, 0xfffffffffffffffc#64, 0xfffffffffffffff8#64,
  0xfffffffffffffff0#64, 0xffffffffffffffe0#64, 0xffffffffffffffc0#64, 0xffffffffffffff80#64,
  0xffffffffffffff00#64, 0xfffffffffffffe00#64, 0xfffffffffffffc00#64, 0xfffffffffffff800#64,
  0xfffffffffffff000#64, 0xffffffffffffe000#64, 0xffffffffffffc000#64, 0xffffffffffff8000#64,
  0xffffffffffff0000#64, 0xfffffffffffe0000#64, 0xfffffffffffc0000#64, 0xfffffffffff80000#64,
  0xfffffffffff00000#64, 0xffffffffffe00000#64, 0xffffffffffc00000#64, 0xffffffffff800000#64,
  0xffffffffff000000#64, 0xfffffffffe000000#64, 0xfffffffffc000000#64, 0xfffffffff8000000#64,
  0xfffffffff0000000#64, 0xffffffffe0000000#64, 0xffffffffc0000000#64, 0xffffffff80000000#64,
  0xffffffff00000000#64, 0xfffffffe00000000#64, 0xfffffffc00000000#64, 0xfffffff800000000#64,
  0xfffffff000000000#64, 0xffffffe000000000#64, 0xffffffc000000000#64, 0xffffff8000000000#64,
  0xffffff0000000000#64, 0xfffffe0000000000#64, 0xfffffc0000000000#64, 0xfffff80000000000#64,
  0xfffff00000000000#64, 0xffffe00000000000#64, 0xffffc00000000000#64, 0xffff800000000000#64,
  0xffff000000000000#64, 0xfffe000000000000#64, 0xfffc000000000000#64, 0xfff8000000000000#64,
  0xfff0000000000000#64, 0xffe0000000000000#64, 0xffc0000000000000#64, 0xff80000000000000#64,
  0xff00000000000000#64, 0xfe00000000000000#64, 0xfc00000000000000#64, 0xf800000000000000#64,
  0xf000000000000000#64, 0xe000000000000000#64, 0xc000000000000000#64, 0x8000000000000000#64,
  0x0#64]

/-- `bits::ps_overflow`, lib/bits.cpp:225-291. -/
def psOverflowTab : List Word := [
  0x8080808080808080#64, 0x7f7f7f7f7f7f7f7f#64, 0x7e7e7e7e7e7e7e7e#64, 0x7d7d7d7d7d7d7d7d#64,
  0x7c7c7c7c7c7c7c7c#64, 0x7b7b7b7b7b7b7b7b#64, 0x7a7a7a7a7a7a7a7a#64, 0x7979797979797979#64,
  0x7878787878787878#64, 0x7777777777777777#64, 0x7676767676767676#64, 0x7575757575757575#64,
  0x7474747474747474#64, 0x7373737373737373#64, 0x7272727272727272#64, 0x7171717171717171#64,
  0x7070707070707070#64, 0x6f6f6f6f6f6f6f6f#64, 0x6e6e6e6e6e6e6e6e#64, 0x6d6d6d6d6d6d6d6d#64,
  0x6c6c6c6c6c6c6c6c#64, 0x6b6b6b6b6b6b6b6b#64, 0x6a6a6a6a6a6a6a6a#64, 0x6969696969696969#64,
  0x6868686868686868#64, 0x6767676767676767#64, 0x6666666666666666#64, 0x6565656565656565#64,
  0x6464646464646464#64, 0x6363636363636363#64, 0x6262626262626262#64, 0x6161616161616161#64,
  0x6060606060606060#64, 0x5f5f5f5f5f5f5f5f#64, 0x5e5e5e5e5e5e5e5e#64, 0x5d5d5d5d5d5d5d5d#64,
  0x5c5c5c5c5c5c5c5c#64, 0x5b5b5b5b5b5b5b5b#64, 0x5a5a5a5a5a5a5a5a#64, 0x5959595959595959#64,
  0x5858585858585858#64, 0x5757575757575757#64, 0x5656565656565656#64, 0x5555555555555555#64,
  0x5454545454545454#64, 0x5353535353535353#64, 0x5252525252525252#64, 0x5151515151515151#64,
  0x5050505050505050#64, 0x4f4f4f4f4f4f4f4f#64, 0x4e4e4e4e4e4e4e4e#64, 0x4d4d4d4d4d4d4d4d#64,
  0x4c4c4c4c4c4c4c4c#64, 0x4b4b4b4b4b4b4b4b#64, 0x4a4a4a4a4a4a4a4a#64, 0x4949494949494949#64,
  0x4848484848484848#64, 0x4747474747474747#64, 0x4646464646464646#64, 0x4545454545454545#64,
  0x4444444444444444#64, 0x4343434343434343#64, 0x4242424242424242#64, 0x4141414141414141#64,
  0x4040404040404040#64]

/-- `bits::lt_sel`, lib/bits.cpp:293-429. -/
def ltSel : List Nat := [
  0, 0, 1, 0, 2, 0, 1, 0, 3, 0, 1, 0, 2, 0, 1, 0, 4, 0, 1, 0, 2, 0, 1, 0, 3, 0, 1, 0, 2, 0, 1, 0,
  5, 0, 1, 0, 2, 0, 1, 0, 3, 0, 1, 0, 2, 0, 1, 0, 4, 0, 1, 0, 2, 0, 1, 0, 3, 0, 1, 0, 2, 0, 1, 0,
  6, 0, 1, 0, 2, 0, 1, 0, 3, 0, 1, 0, 2, 0, 1, 0, 4, 0, 1, 0, 2, 0, 1, 0, 3, 0, 1, 0, 2, 0, 1, 0,
  5, 0, 1, 0, 2, 0, 1, 0, 3, 0, 1, 0, 2, 0, 1, 0, 4, 0, 1, 0, 2, 0, 1, 0, 3, 0, 1, 0, 2, 0, 1, 0,
  7, 0, 1, 0, 2, 0, 1, 0, 3, 0, 1, 0, 2, 0, 1, 0, 4, 0, 1, 0, 2, 0, 1, 0, 3, 0, 1, 0, 2, 0, 1, 0,
  5, 0, 1, 0, 2, 0, 1, 0, 3, 0, 1, 0, 2, 0, 1, 0, 4, 0, 1, 0, 2, 0, 1, 0, 3, 0, 1, 0, 2, 0, 1, 0,
  6, 0, 1, 0, 2, 0, 1, 0, 3, 0, 1, 0, 2, 0, 1, 0, 4, 0, 1, 0, 2, 0, 1, 0, 3, 0, 1, 0, 2, 0, 1, 0,
  5, 0, 1, 0, 2, 0, 1, 0, 3, 0, 1, 0, 2, 0, 1, 0, 4, 0, 1, 0, 2, 0, 1, 0, 3, 0, 1, 0, 2, 0, 1, 0,
  0, 0, 0, 1, 0, 2, 2, 1, 0, 3, 3, 1, 3, 2, 2, 1, 0, 4, 4, 1, 4, 2, 2, 1, 4, 3, 3, 1, 3, 2, 2, 1,
  0, 5, 5, 1, 5, 2, 2, 1, 5, 3, 3, 1, 3, 2, 2, 1, 5, 4, 4, 1, 4, 2, 2, 1, 4, 3, 3, 1, 3, 2, 2, 1,
  0, 6, 6, 1, 6, 2, 2, 1, 6, 3, 3, 1, 3, 2, 2, 1, 6, 4, 4, 1, 4, 2, 2, 1, 4, 3, 3, 1, 3, 2, 2, 1,
  6, 5, 5, 1, 5, 2, 2, 1, 5, 3, 3, 1, 3, 2, 2, 1, 5, 4, 4, 1, 4, 2, 2, 1, 4, 3, 3, 1, 3, 2, 2, 1,
  0, 7, 7, 1, 7, 2, 2, 1, 7, 3, 3, 1, 3, 2, 2, 1, 7, 4, 4, 1, 4, 2, 2, 1, 4, 3, 3, 1, 3, 2, 2, 1,
  7, 5, 5, 1, 5, 2, 2, 1, 5, 3, 3, 1, 3, 2, 2, 1, 5, 4, 4, 1, 4, 2, 2, 1, 4, 3, 3, 1, 3, 2, 2, 1,
  7, 6, 6, 1, 6, 2, 2, 1, 6, 3, 3, 1, 3, 2, 2, 1, 6, 4, 4, 1, 4, 2, 2, 1, 4, 3, 3, 1, 3, 2, 2, 1,
  6, 5, 5, 1, 5, 2, 2, 1, 5, 3, 3, 1, 3, 2, 2, 1, 5, 4, 4, 1, 4, 2, 2, 1, 4, 3, 3, 1, 3, 2, 2, 1,
  0, 0, 0, 0, 0, 0, 0, 2, 0, 0, 0, 3, 0, 3, 3, 2, 0, 0, 0, 4, 0, 4, 4, 2, 0, 4, 4, 3, 4, 3, 3, 2,
  0, 0, 0, 5, 0, 5, 5, 2, 0, 5, 5, 3, 5, 3, 3, 2, 0, 5, 5, 4, 5, 4, 4, 2, 5, 4, 4, 3, 4, 3, 3, 2,
  0, 0, 0, 6, 0, 6, 6, 2, 0, 6, 6, 3, 6, 3, 3, 2, 0, 6, 6, 4, 6, 4, 4, 2, 6, 4, 4, 3, 4, 3, 3, 2,
  0, 6, 6, 5, 6, 5, 5, 2, 6, 5, 5, 3, 5, 3, 3, 2, 6, 5, 5, 4, 5, 4, 4, 2, 5, 4, 4, 3, 4, 3, 3, 2,
  0, 0, 0, 7, 0, 7, 7, 2, 0, 7, 7, 3, 7, 3, 3, 2, 0, 7, 7, 4, 7, 4, 4, 2, 7, 4, 4, 3, 4, 3, 3, 2,
  0, 7, 7, 5, 7, 5, 5, 2, 7, 5, 5, 3, 5, 3, 3, 2, 7, 5, 5, 4, 5, 4, 4, 2, 5, 4, 4, 3, 4, 3, 3, 2,
  0, 7, 7, 6, 7, 6, 6, 2, 7, 6, 6, 3, 6, 3, 3, 2, 7, 6, 6, 4, 6, 4, 4, 2, 6, 4, 4, 3, 4, 3, 3, 2,
  7, 6, 6, 5, 6, 5, 5, 2, 6, 5, 5, 3, 5, 3, 3, 2, 6, 5, 5, 4, 5, 4, 4, 2, 5, 4, 4, 3, 4, 3, 3, 2,
  0, 0, 0, 0, 0, 0, 0, 0, 0, 0, 0, 0, 0, 0, 0, 3, 0, 0, 0, 0, 0, 0, 0, 4, 0, 0, 0, 4, 0, 4, 4, 3,
  0, 0, 0, 0, 0, 0, 0, 5, 0, 0, 0, 5, 0, 5, 5, 3, 0, 0, 0, 5, 0, 5, 5, 4, 0, 5, 5, 4, 5, 4, 4, 3,
  0, 0, 0, 0, 0, 0, 0, 6, 0, 0, 0, 6, 0, 6, 6, 3, 0, 0, 0, 6, 0, 6, 6, 4, 0, 6, 6, 4, 6, 4, 4, 3,
  0, 0, 0, 6, 0, 6, 6, 5, 0, 6, 6, 5, 6, 5, 5, 3, 0, 6, 6, 5, 6, 5, 5, 4, 6, 5, 5, 4, 5, 4, 4, 3,
  0, 0, 0, 0, 0, 0, 0, 7, 0, 0, 0, 7, 0, 7, 7, 3, 0, 0, 0, 7, 0, 7, 7, 4, 0, 7, 7, 4, 7, 4, 4, 3,
  0, 0, 0, 7, 0, 7, 7, 5, 0, 7, 7, 5, 7, 5, 5, 3, 0, 7, 7, 5, 7, 5, 5, 4, 7, 5, 5, 4, 5, 4, 4, 3,
  0, 0, 0, 7, 0, 7, 7, 6, 0, 7, 7, 6, 7, 6, 6, 3, 0, 7, 7, 6, 7, 6, 6, 4, 7, 6, 6, 4, 6, 4, 4, 3,
  0, 7, 7, 6, 7, 6, 6, 5, 7, 6, 6, 5, 6, 5, 5, 3, 7, 6, 6, 5, 6, 5, 5, 4, 6, 5, 5, 4, 5, 4, 4, 3,
  0, 0, 0, 0, 0, 0, 0, 0, 0, 0, 0, 0, 0, 0, 0, 0, 0, 0, 0, 0, 0, 0, 0, 0, 0, 0, 0, 0, 0, 0, 0, 4,
  0, 0, 0, 0, 0, 0, 0, 0, 0, 0, 0, 0, 0, 0, 0, 5, 0, 0, 0, 0, 0, 0, 0, 5, 0, 0, 0, 5, 0, 5, 5, 4,
  0, 0, 0, 0, 0, 0, 0, 0, 0, 0, 0, 0, 0, 0, 0, 6, 0, 0, 0, 0, 0, 0, 0, 6, 0, 0, 0, 6, 0, 6, 6, 4,
  0, 0, 0, 0, 0, 0, 0, 6, 0, 0, 0, 6, 0, 6, 6, 5, 0, 0, 0, 6, 0, 6, 6, 5, 0, 6, 6, 5, 6, 5, 5, 4,
  0, 0, 0, 0, 0, 0, 0, 0, 0, 0, 0, 0, 0, 0, 0, 7, 0, 0, 0, 0, 0, 0, 0, 7, 0, 0, 0, 7, 0, 7, 7, 4,
  0, 0, 0, 0, 0, 0, 0, 7, 0, 0, 0, 7, 0, 7, 7, 5, 0, 0, 0, 7, 0, 7, 7, 5, 0, 7, 7, 5, 7, 5, 5, 4,
  0, 0, 0, 0, 0, 0, 0, 7, 0, 0, 0, 7, 0, 7, 7, 6, 0, 0, 0, 7, 0, 7, 7, 6, 0, 7, 7, 6, 7, 6, 6, 4,
  0, 0, 0, 7, 0, 7, 7, 6, 0, 7, 7, 6, 7, 6, 6, 5, 0, 7, 7, 6, 7, 6, 6, 5, 7, 6, 6, 5, 6, 5, 5, 4,
  0, 0, 0, 0, 0, 0, 0, 0, 0, 0, 0, 0, 0, 0, 0, 0, 0, 0, 0, 0, 0, 0, 0, 0, 0, 0, 0, 0, 0, 0, 0, 0,
  0, 0, 0, 0, 0, 0, 0, 0, 0, 0, 0, 0, 0, 0, 0, 0, 0, 0, 0, 0, 0, 0, 0, 0, 0, 0, 0, 0, 0, 0, 0, 5,
  0, 0, 0, 0, 0, 0, 0, 0, 0, 0, 0, 0, 0, 0, 0, 0, 0, 0, 0, 0, 0, 0, 0, 0, 0, 0, 0, 0, 0, 0, 0, 6,
  0, 0, 0, 0, 0, 0, 0, 0, 0, 0, 0, 0, 0, 0, 0, 6, 0, 0, 0, 0, 0, 0, 0, 6, 0, 0, 0, 6, 0, 6, 6, 5,
  0, 0, 0, 0, 0, 0, 0, 0, 0, 0, 0, 0, 0, 0, 0, 0, 0, 0, 0, 0, 0, 0, 0, 0, 0, 0, 0, 0, 0, 0, 0, 7,
  0, 0, 0, 0, 0, 0, 0, 0, 0, 0, 0, 0, 0, 0, 0, 7, 0, 0, 0, 0, 0, 0, 0, 7, 0, 0, 0, 7, 0, 7, 7, 5,
  0, 0, 0, 0, 0, 0, 0, 0, 0, 0, 0, 0, 0, 0, 0, 7, 0, 0, 0, 0, 0, 0, 0, 7, 0, 0, 0, 7, 0, 7, 7, 6,
  0, 0, 0, 0, 0, 0, 0, 7, 0, 0, 0, 7, 0, 7, 7, 6, 0, 0, 0, 7, 0, 7, 7, 6, 0, 7, 7, 6, 7, 6, 6, 5,
  0, 0, 0, 0, 0, 0, 0, 0, 0, 0, 0, 0, 0, 0, 0, 0, 0, 0, 0, 0, 0, 0, 0, 0, 0, 0, 0, 0, 0, 0, 0, 0,
  0, 0, 0, 0, 0, 0, 0, 0, 0, 0, 0, 0, 0, 0, 0, 0, 0, 0, 0, 0, 0, 0, 0, 0, 0, 0, 0, 0, 0, 0, 0, 0,
  0, 0, 0, 0, 0, 0, 0, 0, 0, 0, 0, 0, 0, 0, 0, 0, 0, 0, 0, 0, 0, 0, 0, 0, 0, 0, 0, 0, 0, 0, 0, 0,
  0, 0, 0, 0, 0, 0, 0, 0, 0, 0, 0, 0, 0, 0, 0, 0, 0, 0, 0, 0, 0, 0, 0, 0, 0, 0, 0, 0, 0, 0, 0, 6,
  0, 0, 0, 0, 0, 0, 0, 0, 0, 0, 0, 0, 0, 0, 0, 0, 0, 0, 0, 0, 0, 0, 0, 0, 0, 0, 0, 0, 0, 0, 0, 0,
  0, 0, 0, 0, 0, 0, 0, 0, 0, 0, 0, 0, 0, 0, 0, 0, 0, 0, 0, 0, 0, 0, 0, 0, 0, 0, 0, 0, 0, 0, 0, 7,
  0, 0, 0, 0, 0, 0, 0, 0, 0, 0, 0, 0, 0, 0, 0, 0, 0, 0, 0, 0, 0, 0, 0, 0, 0, 0, 0, 0, 0, 0, 0, 7,
  0, 0, 0, 0, 0, 0, 0, 0, 0, 0, 0, 0, 0, 0, 0, 7, 0, 0, 0, 0, 0, 0, 0, 7, 0, 0, 0, 7, 0, 7, 7, 6,
  0, 0, 0, 0, 0, 0, 0, 0, 0, 0, 0, 0, 0, 0, 0, 0, 0, 0, 0, 0, 0, 0, 0, 0, 0, 0, 0, 0, 0, 0, 0, 0,
  0, 0, 0, 0, 0, 0, 0, 0, 0, 0, 0, 0, 0, 0, 0, 0, 0, 0, 0, 0, 0, 0, 0, 0, 0, 0, 0, 0, 0, 0, 0, 0,
  0, 0, 0, 0, 0, 0, 0, 0, 0, 0, 0, 0, 0, 0, 0, 0, 0, 0, 0, 0, 0, 0, 0, 0, 0, 0, 0, 0, 0, 0, 0, 0,
  0, 0, 0, 0, 0, 0, 0, 0, 0, 0, 0, 0, 0, 0, 0, 0, 0, 0, 0, 0, 0, 0, 0, 0, 0, 0, 0, 0, 0, 0, 0, 0,
  0, 0, 0, 0, 0, 0, 0, 0, 0, 0, 0, 0, 0, 0, 0, 0, 0, 0, 0, 0, 0, 0, 0, 0, 0, 0, 0, 0, 0, 0, 0, 0,
  0, 0, 0, 0, 0, 0, 0, 0, 0, 0, 0, 0, 0, 0, 0, 0, 0, 0, 0, 0, 0, 0, 0, 0, 0, 0, 0, 0, 0, 0, 0, 0,
  0, 0, 0, 0, 0, 0, 0, 0, 0, 0, 0, 0, 0, 0, 0, 0, 0, 0, 0, 0, 0, 0, 0, 0, 0, 0, 0, 0, 0, 0, 0, 0,
  0, 0, 0, 0, 0, 0, 0, 0, 0, 0, 0, 0, 0, 0, 0, 0, 0, 0, 0, 0, 0, 0, 0, 0, 0, 0, 0, 0, 0, 0, 0, 7]

/-- `bits::lt_fib`, lib/bits.cpp:431-524. -/
def ltFib : List Word := [
  0x1#64, 0x2#64, 0x3#64, 0x5#64,
  0x8#64, 0xd#64, 0x15#64, 0x22#64,
  0x37#64, 0x59#64, 0x90#64, 0xe9#64,
  0x179#64, 0x262#64, 0x3db#64, 0x63d#64,
  0xa18#64, 0x1055#64, 0x1a6d#64, 0x2ac2#64,
  0x452f#64, 0x6ff1#64, 0xb520#64, 0x12511#64,
  0x1da31#64, 0x2ff42#64, 0x4d973#64, 0x7d8b5#64,
  0xcb228#64, 0x148add#64, 0x213d05#64, 0x35c7e2#64,
  0x5704e7#64, 0x8cccc9#64, 0xe3d1b0#64, 0x1709e79#64,
  0x2547029#64, 0x3c50ea2#64, 0x6197ecb#64, 0x9de8d6d#64,
  0xff80c38#64, 0x19d699a5#64, 0x29cea5dd#64, 0x43a53f82#64,
  0x6d73e55f#64, 0xb11924e1#64, 0x11e8d0a40#64, 0x1cfa62f21#64,
  0x2ee333961#64, 0x4bdd96882#64, 0x7ac0ca1e3#64, 0xc69e60a65#64,
  0x1415f2ac48#64, 0x207fd8b6ad#64, 0x3495cb62f5#64, 0x5515a419a2#64,
  0x89ab6f7c97#64, 0xdec1139639#64, 0x1686c8312d0#64, 0x2472d96a909#64,
  0x3af9a19bbd9#64, 0x5f6c7b064e2#64, 0x9a661ca20bb#64, 0xf9d297a859d#64,
  0x19438b44a658#64, 0x28e0b4bf2bf5#64, 0x42244003d24d#64, 0x6b04f4c2fe42#64,
  0xad2934c6d08f#64, 0x1182e2989ced1#64, 0x1c5575e509f60#64, 0x2dd8587da6e31#64,
  0x4a2dce62b0d91#64, 0x780626e057bc2#64, 0xc233f54308953#64, 0x13a3a1c2360515#64,
  0x1fc6e116668e68#64, 0x336a82d89c937d#64, 0x533163ef0321e5#64, 0x869be6c79fb562#64,
  0xd9cd4ab6a2d747#64, 0x16069317e428ca9#64, 0x23a367c34e563f0#64, 0x39a9fadb327f099#64,
  0x5d4d629e80d5489#64, 0x96f75d79b354522#64, 0xf444c01834299ab#64, 0x18b3c1d91e77decd#64,
  0x27f80ddaa1ba7878#64, 0x40abcfb3c0325745#64, 0x68a3dd8e61eccfbd#64, 0xa94fad42221f2702#64]

/-- `bits::lt_lo`, lib/bits.cpp:526-559. -/
def ltLo : List Nat := [
  0, 0, 1, 0, 2, 0, 1, 0, 3, 0, 1, 0, 2, 0, 1, 0, 4, 0, 1, 0, 2, 0, 1, 0, 3, 0, 1, 0, 2, 0, 1, 0,
  5, 0, 1, 0, 2, 0, 1, 0, 3, 0, 1, 0, 2, 0, 1, 0, 4, 0, 1, 0, 2, 0, 1, 0, 3, 0, 1, 0, 2, 0, 1, 0,
  6, 0, 1, 0, 2, 0, 1, 0, 3, 0, 1, 0, 2, 0, 1, 0, 4, 0, 1, 0, 2, 0, 1, 0, 3, 0, 1, 0, 2, 0, 1, 0,
  5, 0, 1, 0, 2, 0, 1, 0, 3, 0, 1, 0, 2, 0, 1, 0, 4, 0, 1, 0, 2, 0, 1, 0, 3, 0, 1, 0, 2, 0, 1, 0,
  7, 0, 1, 0, 2, 0, 1, 0, 3, 0, 1, 0, 2, 0, 1, 0, 4, 0, 1, 0, 2, 0, 1, 0, 3, 0, 1, 0, 2, 0, 1, 0,
  5, 0, 1, 0, 2, 0, 1, 0, 3, 0, 1, 0, 2, 0, 1, 0, 4, 0, 1, 0, 2, 0, 1, 0, 3, 0, 1, 0, 2, 0, 1, 0,
  6, 0, 1, 0, 2, 0, 1, 0, 3, 0, 1, 0, 2, 0, 1, 0, 4, 0, 1, 0, 2, 0, 1, 0, 3, 0, 1, 0, 2, 0, 1, 0,
  5, 0, 1, 0, 2, 0, 1, 0, 3, 0, 1, 0, 2, 0, 1, 0, 4, 0, 1, 0, 2, 0, 1, 0, 3, 0, 1, 0, 2, 0, 1, 0]

end Sdsl.Bits
