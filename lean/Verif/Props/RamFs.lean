/-
  C50: the in-memory file system is a map from names to byte strings. C56: streams on its files.
-/
import Verif.RamFsOps

namespace Sdsl.Props

open Sdsl

/-! ### C50 -/

/-- C50 for all histories in which every `rename` moves an existing file to a different name: all results and the final contents are
those of a map from names to byte strings, from any start. Missing: other uses of `rename`, see below. -/
theorem C50_histories_partial (m : RamFs.Map) (ops : List RamFs.Op) (h : RamFs.RenamesOk (RamFs.find m) ops) :
    (RamFs.run m ops).2 = (RamFs.specRun (RamFs.find m) ops).2 ∧
    ∀ k, RamFs.find (RamFs.run m ops).1 k = (RamFs.specRun (RamFs.find m) ops).1 k := by
  obtain ⟨h1, h2⟩ := RamFs.run_spec ops m _ rfl h
  exact ⟨h2, fun k => by rw [h1]⟩

/-- Without `rename` there is no restriction. -/
theorem C50_histories_without_rename (m : RamFs.Map) (ops : List RamFs.Op) (h : ∀ op ∈ ops, ∀ a b, op ≠ .rename a b) :
    (RamFs.run m ops).2 = (RamFs.specRun (RamFs.find m) ops).2 ∧
    ∀ k, RamFs.find (RamFs.run m ops).1 k = (RamFs.specRun (RamFs.find m) ops).1 k := by
  apply C50_histories_partial
  generalize RamFs.find m = fs
  induction ops generalizing fs with
  | nil => trivial
  | cons op ops ih =>
    refine ⟨?_, ih (fun o ho => h o (by simp [ho])) _⟩
    cases op with
    | rename a b => exact absurd rfl (h _ (by simp) a b)
    | _ => trivial

/-- What `rename` does in every case: the source disappears, the target holds its contents, or is empty if there was no source. -/
theorem C50_rename (m : RamFs.Map) (old new k : RamFs.Name) :
    RamFs.find (RamFs.rename m old new).1 k =
      (if k = old then none else if k = new then some ((RamFs.find m old).getD []) else RamFs.find m k) ∧
    (RamFs.rename m old new).2 = 0 := ⟨RamFs.find_rename m old new k, rfl⟩

/-- C50 is false for renaming a file to itself: the file is deleted. -/
theorem C50_rename_self (m : RamFs.Map) (k : RamFs.Name) : RamFs.find (RamFs.rename m k k).1 k = none := by
  rw [(C50_rename m k k k).1, if_pos rfl]

/-- C50 is false for renaming a missing file: success is reported, and an existing target loses its contents. -/
theorem C50_rename_missing (m : RamFs.Map) (old new : RamFs.Name) (h : RamFs.find m old = none) (hne : new ≠ old) :
    (RamFs.rename m old new).2 = 0 ∧ RamFs.find (RamFs.rename m old new).1 new = some [] := by
  rw [(C50_rename m old new new).1, if_neg hne, if_pos rfl, h]
  exact ⟨rfl, rfl⟩

/-- RAM-file names are those that start with `@`; `ram_file_name` always yields one, and `disk_file_name` undoes it for disk names. -/
theorem C50_names (f : RamFs.Name) :
    (RamFs.isRamFile f = true ↔ ∃ g, f = '@' :: g) ∧ RamFs.isRamFile (RamFs.ramFileName f) = true ∧
    RamFs.ramFileName (RamFs.ramFileName f) = RamFs.ramFileName f ∧
    (RamFs.isRamFile f = false → RamFs.diskFileName (RamFs.ramFileName f) = f) ∧
    (RamFs.isRamFile f = true → '@' :: RamFs.diskFileName f = f) := by
  have hr : ∀ g : RamFs.Name, RamFs.isRamFile ('@' :: g) = true := by intro g; simp [RamFs.isRamFile]
  have h1 : RamFs.isRamFile f = true ↔ ∃ g, f = '@' :: g := by
    constructor
    · intro h
      cases f with
      | nil => simp [RamFs.isRamFile] at h
      | cons c g =>
        simp [RamFs.isRamFile] at h
        exact ⟨g, by rw [h]⟩
    · rintro ⟨g, rfl⟩; exact hr g
  have h2 : RamFs.isRamFile (RamFs.ramFileName f) = true := by
    unfold RamFs.ramFileName
    by_cases h : RamFs.isRamFile f = true
    · rw [if_pos h]; exact h
    · rw [if_neg h]; exact hr f
  refine ⟨h1, h2, ?_, ?_, ?_⟩
  · rw [RamFs.ramFileName, if_pos h2]
  · intro h
    rw [RamFs.diskFileName, if_neg (by simp [h2]), RamFs.ramFileName, if_neg (by simp [h])]; rfl
  · intro h
    obtain ⟨g, rfl⟩ := h1.1 h
    rw [RamFs.diskFileName, if_neg (by simp [h])]; rfl

/-- A history with a rename to which `C50_histories_partial` applies. -/
example : RamFs.RenamesOk (RamFs.find [])
    [.store ['a'] [1#8, 2#8], .rename ['a'] ['b'], .fileSize ['b'], .exists_ ['a'], .remove ['b'], .exists_ ['b']] := by
  refine ⟨trivial, ⟨rfl, by decide⟩, trivial, trivial, trivial, trivial, trivial⟩
example : (RamFs.run [] [.store ['a'] [1#8, 2#8], .rename ['a'] ['b'], .fileSize ['b'], .exists_ ['a'], .remove ['b'], .exists_ ['b']]).2 =
    [.unit, .int 0, .nat 2, .bool false, .int 0, .bool false] := by decide +kernel

/-! ### C56 -/

/-- C56: a new RAM-file (mode `out`) written with any sequence of seeks and writes. The file holds exactly what the sequence means for a
byte string, no access is undefined, the stream does not fail, and no other file changes. -/
theorem C56_write_stream (m : RamFs.Map) (name : RamFs.Name) (ops : List RamFs.WOp) :
    (RamFs.openFile m name { out := true }).2 = some [] ∧
    ∃ V s, RamFs.wrun ⟨[], 0⟩ ⟨RamFs.openBuf ⟨[], 0⟩, false⟩ ops = some (V, s) ∧ s.fail = false ∧
      ∀ k, RamFs.find (RamFs.contentAssign (RamFs.openFile m name { out := true }).1 name V.data) k =
        if k = name then some (RamFs.specWrun [] 0 ops).1 else RamFs.find m k := by
  obtain ⟨h1, h2⟩ := RamFs.openFile_eq m name { out := true }
  refine ⟨by rw [h1]; rfl, ?_⟩
  obtain ⟨V, s, h3, h4⟩ := RamFs.wrun_spec ops ⟨[], 0⟩ ⟨RamFs.openBuf ⟨[], 0⟩, false⟩ [] 0 (RamFs.W_setPtrs ⟨[], 0⟩ (by simp))
  refine ⟨V, s, h3, h4.fail, ?_⟩
  intro k
  rw [RamFs.contentAssign, RamFs.find_assign, h4.data, h2]
  by_cases e : k = name
  · rw [if_pos e, if_pos e]
  · rw [if_neg e, if_neg e, if_neg e]

/-- C56: an existing RAM-file (modes `in` and `out` together) is updated in place by any sequence of seeks and writes. -/
theorem C56_update_stream (m : RamFs.Map) (name : RamFs.Name) (f : List RamFs.Byte) (hf : RamFs.find m name = some f) (ops : List RamFs.WOp) :
    (RamFs.openFile m name { inn := true, out := true }).2 = some f ∧
    ∃ V s, RamFs.wrun ⟨f, 0⟩ ⟨RamFs.openBuf ⟨f, 0⟩, false⟩ ops = some (V, s) ∧ s.fail = false ∧
      ∀ k, RamFs.find (RamFs.contentAssign (RamFs.openFile m name { inn := true, out := true }).1 name V.data) k =
        if k = name then some (RamFs.specWrun f 0 ops).1 else RamFs.find m k := by
  obtain ⟨h1, h2⟩ := RamFs.openFile_eq m name { inn := true, out := true }
  refine ⟨by rw [h1]; exact hf, ?_⟩
  obtain ⟨V, s, h3, h4⟩ := RamFs.wrun_spec ops ⟨f, 0⟩ ⟨RamFs.openBuf ⟨f, 0⟩, false⟩ f 0 (RamFs.W_setPtrs ⟨f, 0⟩ (by simp))
  refine ⟨V, s, h3, h4.fail, ?_⟩
  intro k
  rw [RamFs.contentAssign, RamFs.find_assign, h4.data, h2]
  by_cases e : k = name
  · rw [if_pos e, if_pos e]
  · rw [if_neg e, if_neg e, if_neg e]

/-- C56: an existing RAM-file read with any sequence of seeks, reads, `tellg` and `clear`: every result is that of a byte string with a
position; the files do not change. -/
theorem C56_read_stream (m : RamFs.Map) (name : RamFs.Name) (f : List RamFs.Byte) (hf : RamFs.find m name = some f) (ops : List RamFs.ROp) :
    (RamFs.openFile m name { inn := true }).2 = some f ∧ (∀ k, RamFs.find (RamFs.openFile m name { inn := true }).1 k = RamFs.find m k) ∧
    ∃ s, RamFs.rrun ⟨f, 0⟩ ⟨RamFs.openBuf ⟨f, 0⟩, false⟩ ops = some (s, RamFs.specRrun f 0 false ops) := by
  obtain ⟨h1, h2⟩ := RamFs.openFile_eq m name { inn := true }
  refine ⟨by rw [h1]; exact hf, ?_, RamFs.rrun_spec ops ⟨f, 0⟩ _ f 0 false (RamFs.R_setPtrs ⟨f, 0⟩ (by simp))⟩
  intro k
  rw [h2, h1]
  by_cases e : k = name
  · rw [if_pos e, e]; rfl
  · rw [if_neg e]

/-- C56: opening a missing RAM-file for reading fails and does not create it. -/
theorem C56_open_missing (m : RamFs.Map) (name : RamFs.Name) (out : Bool) (hf : RamFs.find m name = none) :
    (RamFs.openFile m name { inn := true, out := out }).2 = none ∧
    ∀ k, RamFs.find (RamFs.openFile m name { inn := true, out := out }).1 k = RamFs.find m k := by
  obtain ⟨h1, h2⟩ := RamFs.openFile_eq m name { inn := true, out := out }
  refine ⟨by rw [h1]; exact hf, ?_⟩
  intro k
  rw [h2, h1]
  by_cases e : k = name
  · rw [if_pos e, e]; rfl
  · rw [if_neg e]

/-- C56: a writer and a reader on the same RAM-file, used as in `int_vector_buffer` (each access seeks first): every history gives the
results and the final file of the byte-list model under C44, although the writer reallocates the memory the reader points to. Reads
have to start inside of the file. -/
theorem C56_two_streams (f : List RamFs.Byte) (ops : List RamFs.POp) (f' : List RamFs.Byte) (outs : List (List RamFs.Byte))
    (h : RamFs.specP f ops = some (f', outs)) :
    ∃ V, RamFs.prun ⟨f, 0⟩ ⟨RamFs.openBuf ⟨f, 0⟩, false⟩ ⟨RamFs.openBuf ⟨f, 0⟩, false⟩ ops = some (V, outs) ∧ V.data = f' :=
  RamFs.prun_spec ops ⟨f, 0⟩ _ _ f 0 f' outs (RamFs.W_setPtrs ⟨f, 0⟩ (by simp)) rfl h

/-- C56 is false for append mode: the existing contents are overwritten from the start. -/
theorem C56_append_overwrites : ∃ (f bs : List RamFs.Byte), (RamFs.openFile [(['@'], f)] ['@'] { out := true, app := true }).2 = some f ∧
    ∃ V s, RamFs.wrun ⟨f, 0⟩ ⟨RamFs.openBuf ⟨f, 0⟩, false⟩ [.write bs] = some (V, s) ∧ V.data ≠ f ++ bs ∧ V.data = bs ++ f.drop 1 ∧ bs.length = 1 :=
  ⟨[1#8, 2#8], [9#8], by decide +kernel, ⟨[9#8, 2#8], 0⟩, _, rfl, by decide +kernel, by decide +kernel, rfl⟩

/-- C56 is false for `seekp(off, cur)`: the offset is taken from the get position, which writing does not move. -/
theorem C56_seekp_cur_uses_get_position : ∃ (V : RamFs.Vec) (s : RamFs.Stream),
    RamFs.write ⟨[1#8, 2#8, 3#8], 0⟩ ⟨RamFs.openBuf ⟨[1#8, 2#8, 3#8], 0⟩, false⟩ [9#8] = some (V, s) ∧
    ∃ V' s', RamFs.seekpOff V s 0 .cur = some (V', s') ∧ s.buf.p = 1 ∧ s'.buf.p = 0 :=
  ⟨_, _, rfl, _, _, rfl, rfl, rfl⟩

/-- C56: after a write that enlarges the file, `seekp(off, cur)` even computes with a pointer into the old allocation. -/
theorem C56_seekp_cur_dangling : ∃ (V : RamFs.Vec) (s : RamFs.Stream),
    RamFs.write ⟨[], 0⟩ ⟨RamFs.openBuf ⟨[], 0⟩, false⟩ [9#8] = some (V, s) ∧ RamFs.seekpOff V s 0 .cur = none :=
  ⟨_, _, rfl, by decide +kernel⟩

/-- C56 is false for `seekg` behind the end: the stream does not fail, and the next read delivers bytes from the old position. -/
theorem C56_seekg_outside_ignored : ∃ s, RamFs.rrun ⟨[1#8, 2#8], 0⟩ ⟨RamFs.openBuf ⟨[1#8, 2#8], 0⟩, false⟩ [.seek 100, .read 2] =
    some (s, [.unit, .bytes [1#8, 2#8]]) ∧ s.fail = false := ⟨_, rfl, rfl⟩

example : RamFs.specWrun [] 0 [.write [1#8, 2#8, 3#8], .seek 1, .write [9#8], .seekEnd 1, .write [7#8]] = ([1#8, 9#8, 3#8, 0#8, 7#8], 5) := by
  decide +kernel
example : RamFs.specRrun [1#8, 2#8, 3#8] 0 false [.read 2, .tell, .seekOff (-1) .cur, .read 5, .read 1, .clear, .tell] =
    [.bytes [1#8, 2#8], .int 2, .unit, .bytes [2#8, 3#8], .bytes [], .unit, .int 3] := by decide +kernel
example : RamFs.specP [] [.writeAt 2 [5#8], .readAt 1 4, .writeAt 0 [7#8, 7#8], .readAt 0 3] = some ([7#8, 7#8, 5#8], [[], [0#8, 5#8], [], [7#8, 7#8, 5#8]]) := by
  decide +kernel
example : RamFs.find [(['@', 'x'], [1#8])] ['@', 'x'] = some [1#8] := by decide +kernel

end Sdsl.Props
