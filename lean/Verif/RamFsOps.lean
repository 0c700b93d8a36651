/-
  Histories on the in-memory file system and on RAM-file streams, and their specifications.
-/
import Verif.RamFsLemmas

namespace Sdsl.RamFs

open Sdsl

/-! ### Specification of `ram_fs`: a partial map from names to byte strings -/

abbrev FS := Name → Option (List Byte)

def upd (fs : FS) (k : Name) (v : Option (List Byte)) : FS := fun k' => if k' = k then v else fs k'

/-- Meaning of the operations. Renaming follows `std::rename`: a missing source is an error and changes nothing, renaming a file to
itself changes nothing. -/
def specStep (fs : FS) : Op → FS × Out
  | .store k d => (upd fs k (some d), .unit)
  | .exists_ k => (fs, .bool (fs k).isSome)
  | .fileSize k => (fs, .nat ((fs k).getD []).length)
  | .content k => (upd fs k (some ((fs k).getD [])), .bytes ((fs k).getD []))
  | .contentAssign k d => (upd fs k (some d), .unit)
  | .remove k => (upd fs k none, .int 0)
  | .rename old new =>
    match fs old with
    | none => (fs, .int (-1))
    | some d => if old = new then (fs, .int 0) else (upd (upd fs new (some d)) old none, .int 0)

def specRun : FS → List Op → FS × List Out
  | fs, [] => (fs, [])
  | fs, op :: ops => ((specRun (specStep fs op).1 ops).1, (specStep fs op).2 :: (specRun (specStep fs op).1 ops).2)

/-- Every `rename` of the history moves an existing file to a different name. -/
def RenamesOk : FS → List Op → Prop
  | _, [] => True
  | fs, op :: ops => (match op with | .rename old new => (fs old).isSome = true ∧ old ≠ new | _ => True) ∧ RenamesOk (specStep fs op).1 ops

theorem step_spec (m : Map) (fs : FS) (hm : find m = fs) (op : Op)
    (hr : match op with | .rename old new => (fs old).isSome = true ∧ old ≠ new | _ => True) :
    find (step m op).1 = (specStep fs op).1 ∧ (step m op).2 = (specStep fs op).2 := by
  subst hm
  cases op with
  | store k d => exact ⟨by funext k'; simp only [step, specStep, upd, find_store], rfl⟩
  | exists_ k => exact ⟨rfl, rfl⟩
  | fileSize k =>
    simp only [step, specStep, fileSize]
    by_cases hs : exists_ m k = true
    rotate_left
    · rw [if_neg hs]
      have h : find m k = none := by simpa [exists_] using hs
      rw [h]; exact ⟨rfl, rfl⟩
    · rw [if_pos hs]
      obtain ⟨d, h⟩ := Option.isSome_iff_exists.1 hs
      refine ⟨?_, by dsimp only; rw [find_index, if_pos rfl, h]; rfl⟩
      funext k'
      dsimp only
      rw [find_index]
      by_cases e : k' = k
      · rw [if_pos e, e, h]; rfl
      · rw [if_neg e]
  | content k =>
    simp only [step, specStep, content]
    exact ⟨by funext k'; rw [find_index]; rfl, by rw [find_index, if_pos rfl]; rfl⟩
  | contentAssign k d => exact ⟨by funext k'; simp only [step, specStep, contentAssign, upd, find_assign], rfl⟩
  | remove k => exact ⟨by funext k'; simp only [step, specStep, remove, upd, find_erase], rfl⟩
  | rename old new =>
    obtain ⟨h1, h2⟩ := hr
    obtain ⟨d, hd⟩ := Option.isSome_iff_exists.1 h1
    simp only [step, specStep, hd, if_neg h2]
    refine ⟨?_, rfl⟩
    funext k'
    rw [find_rename, hd]
    rfl

theorem run_spec : ∀ (ops : List Op) (m : Map) (fs : FS), find m = fs → RenamesOk fs ops →
    find (run m ops).1 = (specRun fs ops).1 ∧ (run m ops).2 = (specRun fs ops).2
  | [], m, fs, hm, _ => ⟨hm, rfl⟩
  | op :: ops, m, fs, hm, hr => by
    obtain ⟨h1, h2⟩ := step_spec m fs hm op hr.1
    obtain ⟨h3, h4⟩ := run_spec ops (step m op).1 (specStep fs op).1 h1 hr.2
    simp only [run, specRun]
    exact ⟨h3, by rw [h2, h4]⟩

/-! ### Output streams -/

/-- Operations on an open `osfstream`. -/
inductive WOp where
  | seek (pos : Int)
  | seekBeg (off : Int)
  | seekEnd (off : Int)
  | write (bs : List Byte)

def wstep (V : Vec) (s : Stream) : WOp → Option (Vec × Stream)
  | .seek pos => seekp V s pos
  | .seekBeg off => seekpOff V s off .beg
  | .seekEnd off => seekpOff V s off .end_
  | .write bs => write V s bs

def wrun : Vec → Stream → List WOp → Option (Vec × Stream)
  | V, s, [] => some (V, s)
  | V, s, op :: ops => (wstep V s op).bind fun r => wrun r.1 r.2 ops

/-- File contents and position after moving to position `n`: a gap is filled with zero bytes, a negative position is ignored. -/
def specSeek (f : List Byte) (p : Nat) (n : Int) : List Byte × Nat :=
  if n < 0 then (f, p) else (f ++ List.replicate (n.toNat - f.length) 0#8, n.toNat)

def specW (f : List Byte) (p : Nat) : WOp → List Byte × Nat
  | .seek pos => specSeek f p pos
  | .seekBeg off => specSeek f p off
  | .seekEnd off => specSeek f p (f.length + off)
  | .write bs => (f.take p ++ bs ++ f.drop (p + bs.length), p + bs.length)

def specWrun : List Byte → Nat → List WOp → List Byte × Nat
  | f, p, [] => (f, p)
  | f, p, op :: ops => specWrun (specW f p op).1 (specW f p op).2 ops

theorem seek_result {V : Vec} {s : Stream} {f : List Byte} {p : Nat} (h : W V s f p) (n : Int) :
    ∃ V' s', ((pubseekpos V s.buf n true).bind fun r => some (seekpResult V s r)) = some (V', s') ∧
      W V' s' (specSeek f p n).1 (specSeek f p n).2 := by
  unfold specSeek
  by_cases hn : n < 0
  · rw [if_pos hn, pubseekpos_neg V s.buf hn]
    exact ⟨V, s, rfl, h⟩
  · rw [if_neg hn]
    obtain ⟨V', h1, h2, h3⟩ := pubseekpos_out V s.buf n.toNat
    rw [show ((n.toNat : Nat) : Int) = n by omega] at h1
    refine ⟨V', ⟨setPtrs V' n.toNat, false⟩, ?_, ?_⟩
    · rw [h1, Option.bind_some, seekpResult]
      rw [h.fail]
      have : decide (n = -1) = false := by simp; omega
      rw [this]; rfl
    · have := W_setPtrs V' h3
      rw [h2, h.data] at this
      exact this

theorem seekp_spec {V : Vec} {s : Stream} {f : List Byte} {p : Nat} (h : W V s f p) (n : Int) :
    ∃ V' s', seekp V s n = some (V', s') ∧ W V' s' (specSeek f p n).1 (specSeek f p n).2 := by
  rw [seekp, h.fail, if_neg (by simp)]
  exact seek_result h n

theorem wstep_spec {V : Vec} {s : Stream} {f : List Byte} {p : Nat} (h : W V s f p) (op : WOp) :
    ∃ V' s', wstep V s op = some (V', s') ∧ W V' s' (specW f p op).1 (specW f p op).2 := by
  cases op with
  | seek n => exact seekp_spec h n
  | seekBeg off =>
    rw [wstep, seekpOff, h.fail, if_neg (by simp), pubseekoff]
    simp only [Option.bind_some, Int.zero_add]
    exact seek_result h off
  | seekEnd off =>
    rw [wstep, seekpOff, h.fail, if_neg (by simp), pubseekoff]
    rw [epos, if_pos h.eGen, Option.bind_some, h.eg]
    exact seek_result h _
  | write bs => exact write_spec h bs

theorem wrun_spec : ∀ (ops : List WOp) (V : Vec) (s : Stream) (f : List Byte) (p : Nat), W V s f p →
    ∃ V' s', wrun V s ops = some (V', s') ∧ W V' s' (specWrun f p ops).1 (specWrun f p ops).2
  | [], V, s, f, p, h => ⟨V, s, rfl, h⟩
  | op :: ops, V, s, f, p, h => by
    obtain ⟨V1, s1, h1, h2⟩ := wstep_spec h op
    obtain ⟨V2, s2, h3, h4⟩ := wrun_spec ops V1 s1 _ _ h2
    exact ⟨V2, s2, by rw [wrun, h1, Option.bind_some]; exact h3, h4⟩

/-! ### Input streams -/

/-- Operations on an open `isfstream`. -/
inductive ROp where
  | seek (pos : Int)
  | seekOff (off : Int) (way : Way)
  | read (n : Nat)
  | tell
  | clear

def rstep (V : Vec) (s : Stream) : ROp → Option (Stream × Out)
  | .seek pos => (seekg V s pos).bind fun r => some (r.2, .unit)
  | .seekOff off way => (seekgOff V s off way).bind fun r => some (r.2, .unit)
  | .read n => (read V s n).bind fun r => some (r.1, .bytes r.2)
  | .tell => (tellg V s).bind fun r => some (r.2.1, .int r.2.2)
  | .clear => some (clear s, .unit)

def rrun (V : Vec) : Stream → List ROp → Option (Stream × List Out)
  | s, [] => some (s, [])
  | s, op :: ops => (rstep V s op).bind fun r => (rrun V r.1 ops).bind fun q => some (q.1, r.2 :: q.2)

/-- Position after a seek: positions outside of the file and seeks in the failed state are ignored. -/
def specSeekg (f : List Byte) (p : Nat) (fl : Bool) (n : Int) : Nat := if fl = false ∧ 0 ≤ n ∧ n ≤ f.length then n.toNat else p

def specR (f : List Byte) (p : Nat) (fl : Bool) : ROp → Nat × Bool × Out
  | .seek n => (specSeekg f p fl n, fl, .unit)
  | .seekOff off .beg => (specSeekg f p fl off, fl, .unit)
  | .seekOff off .cur => (specSeekg f p fl (p + off), fl, .unit)
  | .seekOff off .end_ => (specSeekg f p fl (f.length + off), fl, .unit)
  | .read n => if fl then (p, true, .bytes []) else
      (p + ((f.drop p).take n).length, decide (((f.drop p).take n).length < n), .bytes ((f.drop p).take n))
  | .tell => (p, fl, .int (if fl then -1 else p))
  | .clear => (p, false, .unit)

def specRrun (f : List Byte) : Nat → Bool → List ROp → List Out
  | _, _, [] => []
  | p, fl, op :: ops => (specR f p fl op).2.2 :: specRrun f (specR f p fl op).1 (specR f p fl op).2.1 ops

theorem seekg_result {V : Vec} {s : Stream} {f : List Byte} {p : Nat} (h : R V s f p false) (n : Int) :
    ∃ s', ((pubseekpos V s.buf n false).bind fun r => some (seekgResult V s r)) = some (V, s') ∧ R V s' f (specSeekg f p false n) false := by
  unfold specSeekg
  by_cases hn : 0 ≤ n ∧ n ≤ f.length
  · rw [if_pos ⟨rfl, hn⟩, pubseekpos_in V s.buf n (by rw [h.data]; exact hn)]
    refine ⟨⟨setPtrs V n.toNat, false⟩, ?_, ?_⟩
    · rw [Option.bind_some, seekgResult, h.fail]
    · have := R_setPtrs V (p := n.toNat) (by rw [h.data]; omega)
      rw [h.data] at this
      exact this
  · rw [if_neg (by rintro ⟨_, x⟩; exact hn x), pubseekpos_in_neg V s.buf n (by rw [h.data]; exact hn)]
    exact ⟨s, by rw [Option.bind_some, seekgResult], h⟩

theorem R_fail {V : Vec} {s : Stream} {f : List Byte} {p : Nat} {fl : Bool} (h : R V s f p fl) : R V (clear s) f p false :=
  ⟨h.data, rfl, h.gGen, h.pos, h.le, h.eGen, h.eg⟩

theorem rstep_spec {V : Vec} {s : Stream} {f : List Byte} {p : Nat} {fl : Bool} (h : R V s f p fl) (op : ROp) :
    ∃ s', rstep V s op = some (s', (specR f p fl op).2.2) ∧ R V s' f (specR f p fl op).1 (specR f p fl op).2.1 := by
  cases fl with
  | true =>
    cases op with
    | seek n =>
      refine ⟨s, by rw [rstep, seekg, h.fail]; rfl, ?_⟩
      simp only [specR, specSeekg]
      rw [if_neg (by simp)]
      exact h
    | seekOff off way =>
      refine ⟨s, ?_, ?_⟩
      · rw [rstep, seekgOff, h.fail]; cases way <;> rfl
      · cases way <;> · simp only [specR, specSeekg]; rw [if_neg (by simp)]; exact h
    | read n => exact ⟨s, by rw [rstep, read, h.fail]; rfl, h⟩
    | tell => exact ⟨s, by rw [rstep, tellg, h.fail]; rfl, h⟩
    | clear => exact ⟨clear s, rfl, R_fail h⟩
  | false =>
    cases op with
    | seek n =>
      obtain ⟨s', h1, h2⟩ := seekg_result h n
      refine ⟨s', ?_, h2⟩
      rw [rstep, seekg, h.fail, if_neg (by simp), h1]; rfl
    | seekOff off way =>
      have hf : s.fail = false := h.fail
      cases way with
      | beg =>
        obtain ⟨s', h1, h2⟩ := seekg_result h off
        refine ⟨s', ?_, h2⟩
        rw [rstep, seekgOff, hf, if_neg (by simp), pubseekoff]
        simp only [Option.bind_some, Int.zero_add]
        rw [h1]; rfl
      | cur =>
        obtain ⟨s', h1, h2⟩ := seekg_result h (p + off)
        refine ⟨s', ?_, h2⟩
        rw [rstep, seekgOff, hf, if_neg (by simp), pubseekoff]
        rw [gpos, if_pos ⟨h.gGen, h.eGen⟩, Option.bind_some, h.pos, h1]; rfl
      | end_ =>
        obtain ⟨s', h1, h2⟩ := seekg_result h (f.length + off)
        refine ⟨s', ?_, h2⟩
        rw [rstep, seekgOff, hf, if_neg (by simp), pubseekoff]
        rw [epos, if_pos h.eGen, Option.bind_some, h.eg, h1]; rfl
    | read n =>
      obtain ⟨s', h1, h2⟩ := read_spec h n
      exact ⟨s', by rw [rstep, h1]; rfl, h2⟩
    | tell =>
      have hd := h.data
      have hle := h.le
      obtain ⟨V', h1, h2, h3⟩ := pubseekpos_out V s.buf p
      have hV : V' = V := by
        unfold pubseekpos seekpos at h1
        rw [if_pos (by rw [hd]; omega)] at h1
        dsimp only at h1
        rw [if_neg (by omega), gpos, if_pos ⟨rfl, rfl⟩, Option.bind_some] at h1
        exact ((Prod.mk.inj (Except.ok.inj (Option.some.inj h1))).1).symm
      subst hV
      refine ⟨⟨setPtrs V' p, false⟩, ?_, ?_⟩
      · rw [rstep, tellg, h.fail, if_neg (by simp), pubseekoff]
        rw [gpos, if_pos ⟨h.gGen, h.eGen⟩, Option.bind_some, h.pos, Int.add_zero, h1]; rfl
      · have := R_setPtrs V' h3
        rw [hd] at this
        exact this
    | clear => exact ⟨clear s, rfl, R_fail h⟩

theorem rrun_spec : ∀ (ops : List ROp) (V : Vec) (s : Stream) (f : List Byte) (p : Nat) (fl : Bool), R V s f p fl →
    ∃ s', rrun V s ops = some (s', specRrun f p fl ops)
  | [], V, s, f, p, fl, h => ⟨s, rfl⟩
  | op :: ops, V, s, f, p, fl, h => by
    obtain ⟨s1, h1, h2⟩ := rstep_spec h op
    obtain ⟨s2, h3⟩ := rrun_spec ops V s1 f _ _ h2
    exact ⟨s2, by rw [rrun, h1, Option.bind_some, h3]; rfl⟩

/-! ### A writer and a reader on the same file, as in `int_vector_buffer` -/

/-- `m_ofile.seekp(pos); m_ofile.write(bs)` and `m_ifile.seekg(pos); m_ifile.read(n); m_ifile.clear()`. -/
inductive POp where
  | writeAt (pos : Nat) (bs : List Byte)
  | readAt (pos n : Nat)

def pstep (V : Vec) (w r : Stream) : POp → Option (Vec × Stream × Stream × List Byte)
  | .writeAt pos bs => (seekp V w pos).bind fun q => (write q.1 q.2 bs).bind fun q => some (q.1, q.2, r, [])
  | .readAt pos n => (seekg V r pos).bind fun q => (read q.1 q.2 n).bind fun t => some (q.1, w, clear t.1, t.2)

def prun : Vec → Stream → Stream → List POp → Option (Vec × List (List Byte))
  | V, _, _, [] => some (V, [])
  | V, w, r, op :: ops => (pstep V w r op).bind fun q => (prun q.1 q.2.1 q.2.2.1 ops).bind fun t => some (t.1, q.2.2.2 :: t.2)

/-- The same on a byte list (`seekWrite` as in the model of `int_vector_buffer`); reads start inside of the file, writes are not empty. -/
def specP : List Byte → List POp → Option (List Byte × List (List Byte))
  | f, [] => some (f, [])
  | f, .writeAt pos bs :: ops =>
    if bs = [] then none else (specP (Sdsl.Ivb.seekWrite f pos bs) ops).bind fun t => some (t.1, [] :: t.2)
  | f, .readAt pos n :: ops =>
    if pos ≤ f.length then (specP f ops).bind fun t => some (t.1, (f.drop pos).take n :: t.2) else none

theorem prun_spec : ∀ (ops : List POp) (V : Vec) (w r : Stream) (f : List Byte) (p : Nat) (f' : List Byte) (outs : List (List Byte)),
    W V w f p → r.fail = false → specP f ops = some (f', outs) → ∃ V', prun V w r ops = some (V', outs) ∧ V'.data = f'
  | [], V, w, r, f, p, f', outs, hw, _, hs => by
    obtain ⟨rfl, rfl⟩ := Prod.mk.inj (Option.some.inj hs)
    exact ⟨V, rfl, hw.data⟩
  | .writeAt pos bs :: ops, V, w, r, f, p, f', outs, hw, hr, hs => by
    rw [specP] at hs
    by_cases hb : bs = []
    · rw [if_pos hb] at hs; cases hs
    · rw [if_neg hb] at hs
      cases hq : specP (Sdsl.Ivb.seekWrite f pos bs) ops with
      | none => rw [hq] at hs; cases hs
      | some t =>
        rw [hq, Option.bind_some] at hs
        obtain ⟨e1, e2⟩ := Prod.mk.inj (Option.some.inj hs)
        obtain ⟨V1, w1, h1, h2⟩ := seekp_spec hw (pos : Int)
        rw [specSeek, if_neg (by omega)] at h2
        dsimp only [Int.toNat_natCast] at h2
        obtain ⟨V2, w2, h3, h4⟩ := write_spec h2 bs
        have e : (f ++ List.replicate (pos - f.length) 0#8).take pos ++ bs ++ (f ++ List.replicate (pos - f.length) 0#8).drop (pos + bs.length)
            = Sdsl.Ivb.seekWrite f pos bs := by
          rw [Sdsl.Ivb.seekWrite, if_neg hb]
          congr 1
          rw [List.drop_append]
          have : List.drop (pos + bs.length - f.length) (List.replicate (pos - f.length) (0#8)) = [] :=
            List.drop_of_length_le (by simp; omega)
          rw [this, List.append_nil]
        rw [e] at h4
        obtain ⟨V', h5, h6⟩ := prun_spec ops V2 w2 r _ _ t.1 t.2 h4 hr hq
        refine ⟨V', ?_, by rw [h6]; exact e1⟩
        rw [prun, pstep, h1, Option.bind_some, h3, Option.bind_some, Option.bind_some]
        dsimp only
        rw [h5, Option.bind_some, e2]
  | .readAt pos n :: ops, V, w, r, f, p, f', outs, hw, hr, hs => by
    rw [specP] at hs
    by_cases hp : pos ≤ f.length
    · rw [if_pos hp] at hs
      cases hq : specP f ops with
      | none => rw [hq] at hs; cases hs
      | some t =>
        rw [hq, Option.bind_some] at hs
        obtain ⟨e1, e2⟩ := Prod.mk.inj (Option.some.inj hs)
        have hd := hw.data
        have hR : R V ⟨setPtrs V pos, false⟩ f pos false := by
          have := R_setPtrs V (p := pos) (by rw [hd]; exact hp)
          rwa [hd] at this
        obtain ⟨s', h1, h2⟩ := read_spec hR n
        obtain ⟨V', h5, h6⟩ := prun_spec ops V w (clear s') f p t.1 t.2 hw rfl hq
        refine ⟨V', ?_, by rw [h6]; exact e1⟩
        rw [prun, pstep, seekg, hr, if_neg (by simp), pubseekpos_in V r.buf pos (by rw [hd]; omega), Option.bind_some, Option.bind_some,
          seekgResult, hr]
        dsimp only [Int.toNat_natCast]
        rw [h1, Option.bind_some, Option.bind_some]
        dsimp only
        rw [h5, Option.bind_some, e2]
    · rw [if_neg hp] at hs; cases hs

end Sdsl.RamFs
