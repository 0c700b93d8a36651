import Verif.LcpBwt
import Verif.Props.LcpBwt

/-! # C95: an array that is too short

The rounds of `construct_lcp_bwt_based` for the text of 260 equal symbols, in groups of ten; each group is an evaluation of the model by the
kernel. -/
namespace Sdsl.Props
open Sdsl.Csa Sdsl.LcpBwt

/-- Some rounds of the main loop. -/
def rounds (bwt : List Nat) (space : Nat) : Nat → Main → Except Fail Main
  | 0, m => .ok m
  | k + 1, m => if m.intervals = 0 then .error .ub else do
    let m ← lift (level bwt m)
    let m ← flush bwt space m
    rounds bwt space k m

/-- Runs of equal values. -/
def runs {α : Type} : List (Nat × α) → List α
  | [] => []
  | (k, x) :: l => List.replicate k x ++ runs l

def isOk (r : Except Fail Main) (m : Main) : Bool :=
  match r with
  | .ok x => decide (x = m)
  | _ => false

/-- Runs of numbers, with their length, first number and step. -/
def segs : List (Nat × Nat × Nat) → List Nat
  | [] => []
  | (k, x, d) :: l => (List.range k).map (fun i => x + i * d) ++ segs l

theorem isOk_eq {r : Except Fail Main} {m : Main} (h : isOk r m = true) : r = .ok m := by
  unfold isOk at h
  split at h
  · rw [of_decide_eq_true h]
  · cases h

theorem loop_rounds (bwt : List Nat) (space : Nat) : ∀ (k : Nat) {m m' : Main}, rounds bwt space k m = .ok m' →
    ∀ j, loop bwt space (k + j) m = loop bwt space j m' := by
  intro k
  induction k with
  | zero => intro m m' h j; simp only [rounds, Except.ok.injEq] at h; subst h; rw [Nat.zero_add]
  | succ k ih =>
    intro m m' h j
    rw [show k + 1 + j = (k + j) + 1 by omega]
    unfold rounds at h
    rw [loop]
    by_cases hi : m.intervals = 0
    · rw [if_pos hi] at h; cases h
    · rw [if_neg hi] at h
      rw [if_neg hi]
      cases e1 : lift (level bwt m) with
      | error e => rw [e1] at h; cases h
      | ok m1 =>
        rw [e1] at h
        simp only [bind, Except.bind] at h ⊢
        cases e2 : flush bwt space m1 with
        | error e => rw [e2] at h; cases h
        | ok m2 =>
          rw [e2] at h
          exact ih h j

/-- The first intervals. -/
def start (bwt : List Nat) (bb : Nat) : Except Fail Main := do
  let n := bwt.length
  let s : St := ⟨Arr.new n 0 bb, true :: List.replicate n false, 0, [], []⟩
  let s ← lift ((news bwt 0 n).foldlM (first n) s)
  pure ⟨s, [], true, s.new, 1, 0, 2 ^ bb - 1, 0, Arr.empty⟩

theorem construct_start {bwt : List Nat} {bb : Nat} {m : Main} (h : start bwt bb = .ok m) (fuel : Nat) : construct bwt bb fuel = loop bwt (bwt.length * bb) fuel m := by
  unfold start at h
  unfold construct
  simp only [bind, Except.bind] at h ⊢
  split
  · rename_i e; rw [e] at h; cases h
  · rename_i e; rw [e] at h
    simp only [pure, Except.pure, Except.ok.injEq] at h
    rw [h]

def m0 : Main := ⟨⟨⟨6, segs [(261, 0, 0)]⟩, (runs [(2, true), (259, false), (1, true)]), 2, [(1, 261), (0, 1)], (runs [])⟩, (runs []), true, 2, 1, 0, 63, 0, ⟨64, segs []⟩⟩
def m1 : Main := ⟨⟨⟨6, segs [(2, 0, 0), (10, 1, 1), (249, 0, 0)]⟩, (runs [(12, true), (249, false), (1, true)]), 1, [], (runs [(524, false)])⟩, (runs [(21, false), (2, true), (501, false)]), false, 1, 11, 0, 63, 0, ⟨64, segs []⟩⟩
def m2 : Main := ⟨⟨⟨6, segs [(2, 0, 0), (20, 1, 1), (239, 0, 0)]⟩, (runs [(22, true), (239, false), (1, true)]), 1, [], (runs [(524, false)])⟩, (runs [(41, false), (2, true), (481, false)]), false, 1, 21, 0, 63, 0, ⟨64, segs []⟩⟩
def m3 : Main := ⟨⟨⟨6, segs [(2, 0, 0), (30, 1, 1), (229, 0, 0)]⟩, (runs [(32, true), (229, false), (1, true)]), 1, [], (runs [(524, false)])⟩, (runs [(61, false), (2, true), (461, false)]), false, 1, 31, 0, 63, 0, ⟨64, segs []⟩⟩
def m4 : Main := ⟨⟨⟨6, segs [(2, 0, 0), (40, 1, 1), (219, 0, 0)]⟩, (runs [(42, true), (219, false), (1, true)]), 1, [], (runs [(524, false)])⟩, (runs [(81, false), (2, true), (441, false)]), false, 1, 41, 0, 63, 0, ⟨64, segs []⟩⟩
def m5 : Main := ⟨⟨⟨6, segs [(2, 0, 0), (50, 1, 1), (209, 0, 0)]⟩, (runs [(52, true), (209, false), (1, true)]), 1, [], (runs [(524, false)])⟩, (runs [(101, false), (2, true), (421, false)]), false, 1, 51, 0, 63, 0, ⟨64, segs []⟩⟩
def m6 : Main := ⟨⟨⟨6, segs [(2, 0, 0), (60, 1, 1), (199, 0, 0)]⟩, (runs [(62, true), (199, false), (1, true)]), 1, [], (runs [(524, false)])⟩, (runs [(121, false), (2, true), (401, false)]), false, 1, 61, 0, 63, 0, ⟨64, segs []⟩⟩
def m7 : Main := ⟨⟨⟨7, segs [(8, 1, 1), (189, 0, 0)]⟩, (runs [(64, true), (197, false), (1, true)]), 1, [], (runs [(524, false)])⟩, (runs [(141, false), (2, true), (381, false)]), false, 1, 71, 62, 190, 1, ⟨6, segs [(2, 0, 0), (62, 1, 1), (197, 0, 0)]⟩⟩
def m8 : Main := ⟨⟨⟨7, segs [(18, 1, 1), (179, 0, 0)]⟩, (runs [(64, true), (197, false), (1, true)]), 1, [], (runs [(524, false)])⟩, (runs [(161, false), (2, true), (361, false)]), false, 1, 81, 62, 190, 1, ⟨6, segs [(2, 0, 0), (62, 1, 1), (197, 0, 0)]⟩⟩
def m9 : Main := ⟨⟨⟨7, segs [(28, 1, 1), (169, 0, 0)]⟩, (runs [(64, true), (197, false), (1, true)]), 1, [], (runs [(524, false)])⟩, (runs [(181, false), (2, true), (341, false)]), false, 1, 91, 62, 190, 1, ⟨6, segs [(2, 0, 0), (62, 1, 1), (197, 0, 0)]⟩⟩
def m10 : Main := ⟨⟨⟨7, segs [(38, 1, 1), (159, 0, 0)]⟩, (runs [(64, true), (197, false), (1, true)]), 1, [], (runs [(524, false)])⟩, (runs [(201, false), (2, true), (321, false)]), false, 1, 101, 62, 190, 1, ⟨6, segs [(2, 0, 0), (62, 1, 1), (197, 0, 0)]⟩⟩
def m11 : Main := ⟨⟨⟨7, segs [(48, 1, 1), (149, 0, 0)]⟩, (runs [(64, true), (197, false), (1, true)]), 1, [], (runs [(524, false)])⟩, (runs [(221, false), (2, true), (301, false)]), false, 1, 111, 62, 190, 1, ⟨6, segs [(2, 0, 0), (62, 1, 1), (197, 0, 0)]⟩⟩
def m12 : Main := ⟨⟨⟨7, segs [(58, 1, 1), (139, 0, 0)]⟩, (runs [(64, true), (197, false), (1, true)]), 1, [], (runs [(524, false)])⟩, (runs [(241, false), (2, true), (281, false)]), false, 1, 121, 62, 190, 1, ⟨6, segs [(2, 0, 0), (62, 1, 1), (197, 0, 0)]⟩⟩
def m13 : Main := ⟨⟨⟨7, segs [(68, 1, 1), (129, 0, 0)]⟩, (runs [(64, true), (197, false), (1, true)]), 1, [], (runs [(524, false)])⟩, (runs [(261, false), (2, true), (261, false)]), false, 1, 131, 62, 190, 1, ⟨6, segs [(2, 0, 0), (62, 1, 1), (197, 0, 0)]⟩⟩
def m14 : Main := ⟨⟨⟨7, segs [(78, 1, 1), (119, 0, 0)]⟩, (runs [(64, true), (197, false), (1, true)]), 1, [], (runs [(524, false)])⟩, (runs [(281, false), (2, true), (241, false)]), false, 1, 141, 62, 190, 1, ⟨6, segs [(2, 0, 0), (62, 1, 1), (197, 0, 0)]⟩⟩
def m15 : Main := ⟨⟨⟨7, segs [(88, 1, 1), (109, 0, 0)]⟩, (runs [(64, true), (197, false), (1, true)]), 1, [], (runs [(524, false)])⟩, (runs [(301, false), (2, true), (221, false)]), false, 1, 151, 62, 190, 1, ⟨6, segs [(2, 0, 0), (62, 1, 1), (197, 0, 0)]⟩⟩
def m16 : Main := ⟨⟨⟨7, segs [(98, 1, 1), (99, 0, 0)]⟩, (runs [(64, true), (197, false), (1, true)]), 1, [], (runs [(524, false)])⟩, (runs [(321, false), (2, true), (201, false)]), false, 1, 161, 62, 190, 1, ⟨6, segs [(2, 0, 0), (62, 1, 1), (197, 0, 0)]⟩⟩
def m17 : Main := ⟨⟨⟨7, segs [(108, 1, 1), (89, 0, 0)]⟩, (runs [(64, true), (197, false), (1, true)]), 1, [], (runs [(524, false)])⟩, (runs [(341, false), (2, true), (181, false)]), false, 1, 171, 62, 190, 1, ⟨6, segs [(2, 0, 0), (62, 1, 1), (197, 0, 0)]⟩⟩
def m18 : Main := ⟨⟨⟨7, segs [(118, 1, 1), (79, 0, 0)]⟩, (runs [(64, true), (197, false), (1, true)]), 1, [], (runs [(524, false)])⟩, (runs [(361, false), (2, true), (161, false)]), false, 1, 181, 62, 190, 1, ⟨6, segs [(2, 0, 0), (62, 1, 1), (197, 0, 0)]⟩⟩
def m19 : Main := ⟨⟨⟨9, segs [(1, 1, 1), (69, 0, 0)]⟩, (runs [(191, true), (70, false), (1, true)]), 1, [], (runs [(524, false)])⟩, (runs [(381, false), (2, true), (141, false)]), false, 1, 191, 189, 701, 2, ⟨8, segs [(2, 0, 0), (189, 1, 1)]⟩⟩
def m20 : Main := ⟨⟨⟨9, segs [(11, 1, 1), (59, 0, 0)]⟩, (runs [(191, true), (70, false), (1, true)]), 1, [], (runs [(524, false)])⟩, (runs [(401, false), (2, true), (121, false)]), false, 1, 201, 189, 701, 2, ⟨8, segs [(2, 0, 0), (189, 1, 1)]⟩⟩
def m21 : Main := ⟨⟨⟨9, segs [(21, 1, 1), (49, 0, 0)]⟩, (runs [(191, true), (70, false), (1, true)]), 1, [], (runs [(524, false)])⟩, (runs [(421, false), (2, true), (101, false)]), false, 1, 211, 189, 701, 2, ⟨8, segs [(2, 0, 0), (189, 1, 1)]⟩⟩
def m22 : Main := ⟨⟨⟨9, segs [(31, 1, 1), (39, 0, 0)]⟩, (runs [(191, true), (70, false), (1, true)]), 1, [], (runs [(524, false)])⟩, (runs [(441, false), (2, true), (81, false)]), false, 1, 221, 189, 701, 2, ⟨8, segs [(2, 0, 0), (189, 1, 1)]⟩⟩
def m23 : Main := ⟨⟨⟨9, segs [(41, 1, 1), (29, 0, 0)]⟩, (runs [(191, true), (70, false), (1, true)]), 1, [], (runs [(524, false)])⟩, (runs [(461, false), (2, true), (61, false)]), false, 1, 231, 189, 701, 2, ⟨8, segs [(2, 0, 0), (189, 1, 1)]⟩⟩
def m24 : Main := ⟨⟨⟨9, segs [(51, 1, 1), (19, 0, 0)]⟩, (runs [(191, true), (70, false), (1, true)]), 1, [], (runs [(524, false)])⟩, (runs [(481, false), (2, true), (41, false)]), false, 1, 241, 189, 701, 2, ⟨8, segs [(2, 0, 0), (189, 1, 1)]⟩⟩
def m25 : Main := ⟨⟨⟨9, segs [(61, 1, 1), (9, 0, 0)]⟩, (runs [(191, true), (70, false), (1, true)]), 1, [], (runs [(524, false)])⟩, (runs [(501, false), (2, true), (21, false)]), false, 1, 251, 189, 701, 2, ⟨8, segs [(2, 0, 0), (189, 1, 1)]⟩⟩
def m26 : Main := ⟨⟨⟨9, segs [(70, 1, 1)]⟩, (runs [(191, true), (70, false), (1, true)]), 0, [], (runs [(524, false)])⟩, (runs [(524, false)]), false, 0, 261, 189, 701, 2, ⟨8, segs [(2, 0, 0), (189, 1, 1)]⟩⟩

theorem s0 : start (aText 260) 6 = .ok m0 := isOk_eq (by decide +kernel)
theorem r0 : rounds (aText 260) 1566 10 m0 = .ok m1 := isOk_eq (by decide +kernel)
theorem r1 : rounds (aText 260) 1566 10 m1 = .ok m2 := isOk_eq (by decide +kernel)
theorem r2 : rounds (aText 260) 1566 10 m2 = .ok m3 := isOk_eq (by decide +kernel)
theorem r3 : rounds (aText 260) 1566 10 m3 = .ok m4 := isOk_eq (by decide +kernel)
theorem r4 : rounds (aText 260) 1566 10 m4 = .ok m5 := isOk_eq (by decide +kernel)
theorem r5 : rounds (aText 260) 1566 10 m5 = .ok m6 := isOk_eq (by decide +kernel)
theorem r6 : rounds (aText 260) 1566 10 m6 = .ok m7 := isOk_eq (by decide +kernel)
theorem r7 : rounds (aText 260) 1566 10 m7 = .ok m8 := isOk_eq (by decide +kernel)
theorem r8 : rounds (aText 260) 1566 10 m8 = .ok m9 := isOk_eq (by decide +kernel)
theorem r9 : rounds (aText 260) 1566 10 m9 = .ok m10 := isOk_eq (by decide +kernel)
theorem r10 : rounds (aText 260) 1566 10 m10 = .ok m11 := isOk_eq (by decide +kernel)
theorem r11 : rounds (aText 260) 1566 10 m11 = .ok m12 := isOk_eq (by decide +kernel)
theorem r12 : rounds (aText 260) 1566 10 m12 = .ok m13 := isOk_eq (by decide +kernel)
theorem r13 : rounds (aText 260) 1566 10 m13 = .ok m14 := isOk_eq (by decide +kernel)
theorem r14 : rounds (aText 260) 1566 10 m14 = .ok m15 := isOk_eq (by decide +kernel)
theorem r15 : rounds (aText 260) 1566 10 m15 = .ok m16 := isOk_eq (by decide +kernel)
theorem r16 : rounds (aText 260) 1566 10 m16 = .ok m17 := isOk_eq (by decide +kernel)
theorem r17 : rounds (aText 260) 1566 10 m17 = .ok m18 := isOk_eq (by decide +kernel)
theorem r18 : rounds (aText 260) 1566 10 m18 = .ok m19 := isOk_eq (by decide +kernel)
theorem r19 : rounds (aText 260) 1566 10 m19 = .ok m20 := isOk_eq (by decide +kernel)
theorem r20 : rounds (aText 260) 1566 10 m20 = .ok m21 := isOk_eq (by decide +kernel)
theorem r21 : rounds (aText 260) 1566 10 m21 = .ok m22 := isOk_eq (by decide +kernel)
theorem r22 : rounds (aText 260) 1566 10 m22 = .ok m23 := isOk_eq (by decide +kernel)
theorem r23 : rounds (aText 260) 1566 10 m23 = .ok m24 := isOk_eq (by decide +kernel)
theorem r24 : rounds (aText 260) 1566 10 m24 = .ok m25 := isOk_eq (by decide +kernel)
theorem r25 : rounds (aText 260) 1566 10 m25 = .ok m26 := isOk_eq (by decide +kernel)

/-- The array that is returned: the LCP values of the first 191 rows. -/
def shortArr : Arr := ⟨9, 0 :: List.range 190⟩

theorem last_round : (match loop (aText 260) 1566 1 m26 with | .ok a => decide (a.width = 9 ∧ a.xs = 0 :: List.range 190) | _ => false) = true := by decide +kernel

theorem loop_last : loop (aText 260) 1566 1 m26 = .ok shortArr := by
  have h := last_round
  split at h
  · rename_i a e
    obtain ⟨h1, h2⟩ := of_decide_eq_true h
    rw [e]
    cases a
    simp only at h1 h2
    rw [h1, h2]
    rfl
  · cases h

theorem construct_short : construct (aText 260) 6 261 = .ok shortArr := by
  rw [construct_start s0, show (aText 260).length * 6 = 1566 by decide +kernel]
  rw [show 261 = 10 + 251 from rfl, loop_rounds _ _ _ r0]
  rw [show 251 = 10 + 241 from rfl, loop_rounds _ _ _ r1]
  rw [show 241 = 10 + 231 from rfl, loop_rounds _ _ _ r2]
  rw [show 231 = 10 + 221 from rfl, loop_rounds _ _ _ r3]
  rw [show 221 = 10 + 211 from rfl, loop_rounds _ _ _ r4]
  rw [show 211 = 10 + 201 from rfl, loop_rounds _ _ _ r5]
  rw [show 201 = 10 + 191 from rfl, loop_rounds _ _ _ r6]
  rw [show 191 = 10 + 181 from rfl, loop_rounds _ _ _ r7]
  rw [show 181 = 10 + 171 from rfl, loop_rounds _ _ _ r8]
  rw [show 171 = 10 + 161 from rfl, loop_rounds _ _ _ r9]
  rw [show 161 = 10 + 151 from rfl, loop_rounds _ _ _ r10]
  rw [show 151 = 10 + 141 from rfl, loop_rounds _ _ _ r11]
  rw [show 141 = 10 + 131 from rfl, loop_rounds _ _ _ r12]
  rw [show 131 = 10 + 121 from rfl, loop_rounds _ _ _ r13]
  rw [show 121 = 10 + 111 from rfl, loop_rounds _ _ _ r14]
  rw [show 111 = 10 + 101 from rfl, loop_rounds _ _ _ r15]
  rw [show 101 = 10 + 91 from rfl, loop_rounds _ _ _ r16]
  rw [show 91 = 10 + 81 from rfl, loop_rounds _ _ _ r17]
  rw [show 81 = 10 + 71 from rfl, loop_rounds _ _ _ r18]
  rw [show 71 = 10 + 61 from rfl, loop_rounds _ _ _ r19]
  rw [show 61 = 10 + 51 from rfl, loop_rounds _ _ _ r20]
  rw [show 51 = 10 + 41 from rfl, loop_rounds _ _ _ r21]
  rw [show 41 = 10 + 31 from rfl, loop_rounds _ _ _ r22]
  rw [show 31 = 10 + 21 from rfl, loop_rounds _ _ _ r23]
  rw [show 21 = 10 + 11 from rfl, loop_rounds _ _ _ r24]
  rw [show 11 = 10 + 1 from rfl, loop_rounds _ _ _ r25]
  exact loop_last

/-- C95 is false: for the text of 260 equal symbols (261 suffixes) the array has 191 entries only, since values that are not known yet are not
written to the new file, which is shorter then. -/
theorem C95_short_array_wrong : IsText (aText 260) ∧ IsSA (aText 260) (List.range 261).reverse ∧
    ∃ bwt, constructBwt (aText 260) (List.range 261).reverse = some bwt ∧ ∃ a, (∀ fuel, 261 ≤ fuel → construct bwt 6 fuel = .ok a) ∧
      a.xs.length = 191 ∧ ¬ IsLcpArray (aText 260) (List.range 261).reverse a.xs := by
  have hl : shortArr.xs.length = 191 := by simp [shortArr]
  refine ⟨aText_isText 260, aText_isSA 260, aText 260, by decide +kernel, shortArr, fun fuel hf => ?_, hl, fun hn => ?_⟩
  · rw [construct_fuel (by rw [construct_short]; simp) fuel hf, construct_short]
  · have := hn.1
    rw [hl, show (aText 260).length = 261 by unfold aText; rw [List.length_append, List.length_replicate]; rfl] at this
    omega

end Sdsl.Props
