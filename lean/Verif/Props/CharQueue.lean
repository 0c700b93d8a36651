import Verif.CharQueue

/-! # C93: `buffered_char_queue` is a queue -/
namespace Sdsl.Props
open Sdsl.CharQueue

/-- C93: whatever the file and the buffers contain at the beginning, and whatever happens to other files, the bytes are returned in the order in
which they were pushed. -/
theorem C93_fifo (junk junk' : List Byte) (hj : junk.length = bufferSize) (hj' : junk'.length = bufferSize) (dir : String) (c : Char) (pid : Nat)
    (fs : Fs) (ops : List Op) (ho : ∀ s d, Op.other s d ∈ ops → s ≠ dir ++ "buffered_char_queue_" ++ toString pid) (out : List Byte)
    (h : fifo [] ops = some out) : run bufferSize (init junk junk' dir c pid) fs ops = some out :=
  run_inv ops (init_inv (by decide) hj hj' dir c pid fs) ho h

/-- Three bytes, with a change of another file. -/
example : fifo [] [.push 1, .push 2, .pop, .other "x" [7], .push 3, .pop, .pop] = some [1, 2, 3] ∧
    (List.replicate bufferSize (0 : Byte)).length = bufferSize ∧
    (∀ s d, Op.other s d ∈ [Op.push 1, .push 2, .pop, .other "x" [7], .push 3, .pop, .pop] → s ≠ "/tmp/" ++ "buffered_char_queue_" ++ toString 42) := by
  refine ⟨by decide, by simp, fun s d h => ?_⟩
  simp only [List.mem_cons, reduceCtorEq, Op.other.injEq, false_or, List.not_mem_nil, or_false] at h
  rw [h.1]
  decide

/-- With a buffer of two bytes the file is used. -/
example : run 2 (init [0, 0] [0, 0] "/tmp/" 'a' 42) (fun _ => [9, 9, 9]) [.push 1, .push 2, .push 3, .push 4, .push 5, .pop, .pop, .pop, .pop, .push 6, .pop, .pop] =
    some [1, 2, 3, 4, 5, 6] := by decide

/-- C93: two queues in different directories (or of different processes) do not disturb each other. -/
theorem C93_two_queues (j1 j2 j3 j4 : List Byte) (h1 : j1.length = bufferSize) (h2 : j2.length = bufferSize) (h3 : j3.length = bufferSize)
    (h4 : j4.length = bufferSize) (dir dir' : String) (c c' : Char) (pid pid' : Nat)
    (hn : dir ++ "buffered_char_queue_" ++ toString pid ≠ dir' ++ "buffered_char_queue_" ++ toString pid') (fs : Fs) (ops : List (Bool × Op))
    (ho : ∀ w s d, (w, Op.other s d) ∈ ops → s ≠ dir ++ "buffered_char_queue_" ++ toString pid ∧ s ≠ dir' ++ "buffered_char_queue_" ++ toString pid')
    (out : List (Bool × Byte)) (h : fifo2 [] [] ops = some out) :
    run2 bufferSize (init j1 j2 dir c pid) (init j3 j4 dir' c' pid') fs ops = some out :=
  run2_inv ops (init_inv (by decide) h1 h2 dir c pid fs) (init_inv (by decide) h3 h4 dir' c' pid' fs) hn ho h

/-- Two directories. -/
example : "/tmp/a/" ++ "buffered_char_queue_" ++ toString 42 ≠ "/tmp/b/" ++ "buffered_char_queue_" ++ toString 42 ∧
    fifo2 [] [] [(false, .push 1), (true, .push 2), (false, .pop), (true, .pop)] = some [(false, 1), (true, 2)] := by decide

/-- C93 is false for two queues with the same directory, even for different symbols `c`, `c'`: the name of the file does not depend on the
symbol. 20000 bytes `x` are pushed to the first queue, then 20000 bytes `y` to the second one; the byte 10001 of the first one is `y`. -/
theorem C93_same_directory_wrong (j1 j2 j3 j4 : List Byte) (h1 : j1.length = bufferSize) (h2 : j2.length = bufferSize) (h3 : j3.length = bufferSize)
    (h4 : j4.length = bufferSize) (dir : String) (c c' : Char) (pid : Nat) (fs : Fs) (x y : Byte) :
    run2 bufferSize (init j1 j2 dir c pid) (init j3 j4 dir c' pid) fs
      (List.replicate 20000 (false, .push x) ++ (List.replicate 20000 (true, .push y) ++ List.replicate 10001 (false, .pop))) =
    some (List.replicate 10000 (false, x) ++ [(false, y)]) := by
  obtain ⟨a, fs1, a1, a2, a3, a4, a5⟩ := run2_push false x (List.replicate 20000 (true, .push y) ++ List.replicate 10001 (false, .pop)) 20000
    (a := init j1 j2 dir c pid) (b := init j3 j4 dir c' pid) (fs := fs) (c := []) (init_inv (B := bufferSize) (by decide) h1 h2 dir c pid fs)
  rw [a5]
  simp only [Bool.false_eq_true, if_false]
  obtain ⟨b, fs2, b1, b2, b3, b4, b5⟩ := run2_push true y (List.replicate 10001 (false, .pop)) 20000
    (a := a) (b := init j3 j4 dir c' pid) (fs := fs1) (c := []) (init_inv (B := bufferSize) (by decide) h3 h4 dir c' pid fs1)
  rw [b5]
  simp only [if_true]
  rw [List.nil_append] at a1 b1
  exact shared (B := bufferSize) (by decide) (a4.trans b4.symm) a1 a2 a3 b1 b2 b3

/-- Bytes that differ. -/
example : (1 : Byte) ≠ 2 ∧ (List.replicate 10000 (0 : Byte)).length = bufferSize := ⟨by decide, List.length_replicate⟩

end Sdsl.Props
