/-
  Lemmas about the in-memory file system: the map operations and the stream invariants.
-/
import Verif.RamFs
import Verif.UtilLemmas

namespace Sdsl.RamFs

open Sdsl

/-! ### The map -/

theorem find_insert (m : Map) (k : Name) (v : List Byte) (k' : Name) :
    find (insert m k v) k' = if k' = k then some ((find m k).getD v) else find m k' := by
  unfold insert
  cases h : find m k with
  | some d =>
    rw [if_pos (by simp)]
    by_cases e : k' = k
    · rw [if_pos e, e, h]; rfl
    · rw [if_neg e]
  | none =>
    rw [if_neg (by simp), find]
    by_cases e : k' = k
    · rw [if_pos e.symm, if_pos e]; rfl
    · rw [if_neg (fun h => e h.symm), if_neg e]

theorem find_erase (m : Map) (k k' : Name) : find (erase m k) k' = if k' = k then none else find m k' := by
  induction m with
  | nil => simp [erase, find]
  | cons a m ih =>
    obtain ⟨x, v⟩ := a
    unfold erase at ih ⊢
    rw [List.filter_cons]
    by_cases hx : x = k
    · rw [if_neg (by simp [hx]), ih, find]
      by_cases e : k' = k
      · rw [if_pos e, if_pos e]
      · rw [if_neg e, if_neg e, if_neg (by rw [hx]; exact fun h => e h.symm)]
    · rw [if_pos (by simp [hx]), find, find, ih]
      by_cases e : k' = k
      · rw [if_pos e, if_neg (by rw [e]; exact hx), if_pos e]
      · rw [if_neg e, if_neg e]

theorem find_map (k : Name) (v : List Byte) : ∀ (m : Map) (k' : Name),
    find (m.map fun e => if e.1 = k then (e.1, v) else e) k' = if k' = k then (find m k).map (fun _ => v) else find m k'
  | [], k' => by simp [find]
  | (x, d) :: m, k' => by
    rw [List.map_cons]
    by_cases hx : x = k
    · rw [if_pos hx, find, find, find, find_map k v m k', if_pos hx]
      by_cases e : k' = k
      · rw [if_pos (by rw [hx, e]), if_pos e]; rfl
      · have : ¬ x = k' := by rw [hx]; exact fun h => e h.symm
        rw [if_neg this, if_neg e, if_neg e, if_neg this]
    · rw [if_neg hx, find, find, find, find_map k v m k', if_neg hx]
      by_cases e : k' = k
      · rw [if_neg (by rw [e]; exact hx), if_pos e, if_pos e]
      · rw [if_neg e, if_neg e]

theorem find_index (m : Map) (k k' : Name) : find (index m k) k' = if k' = k then some ((find m k).getD []) else find m k' :=
  find_insert m k [] k'

theorem find_assign (m : Map) (k : Name) (v : List Byte) (k' : Name) : find (assign m k v) k' = if k' = k then some v else find m k' := by
  unfold assign
  rw [find_map, find_index, if_pos rfl, find_index]
  by_cases e : k' = k
  · rw [if_pos e, if_pos e]; rfl
  · rw [if_neg e, if_neg e, if_neg e]

theorem find_store (m : Map) (k : Name) (d : List Byte) (k' : Name) : find (store m k d) k' = if k' = k then some d else find m k' := by
  unfold store exists_
  cases h : find m k with
  | none => rw [if_pos (by simp), find_insert, h]; rfl
  | some x => rw [if_neg (by simp), find_assign]

theorem find_rename (m : Map) (old new k' : Name) :
    find (rename m old new).1 k' = if k' = old then none else if k' = new then some ((find m old).getD []) else find m k' := by
  unfold rename remove
  dsimp only
  rw [find_erase, find_assign, find_assign, find_index, find_index, if_pos rfl]
  by_cases h1 : k' = old
  · rw [if_pos h1, if_pos h1]
  · rw [if_neg h1, if_neg h1, if_neg h1, if_neg h1]; rfl

/-- `open`: which files exist afterwards and what the opened file holds. -/
theorem openFile_eq (m : Map) (name : Name) (mode : Mode) :
    (openFile m name mode).2 = (if mode.inn && !mode.trunc then find m name
      else some (if mode.trunc || (mode.out && !mode.app) then [] else (find m name).getD [])) ∧
    ∀ k, find (openFile m name mode).1 k = if k = name then (openFile m name mode).2 else find m k := by
  unfold openFile exists_
  cases hi : mode.inn <;> cases ht : mode.trunc <;> cases ho : mode.out <;> cases ha : mode.app <;> cases hf : find m name <;>
    simp [content, contentAssign, find_assign, find_index, find_store, hf] <;>
    intro k <;> by_cases e : k = name <;> simp [e]

/-! ### Streams -/

/-- An output stream at position `p` of the file `f`. -/
structure W (V : Vec) (s : Stream) (f : List Byte) (p : Nat) : Prop where
  data : V.data = f
  fail : s.fail = false
  pGen : s.buf.pGen = V.gen
  pos : s.buf.p = p
  ep : s.buf.ep = f.length
  le : p ≤ f.length
  eGen : s.buf.eGen = V.gen
  eg : s.buf.eg = f.length

/-- An input stream at position `p` of the file `f`. -/
structure R (V : Vec) (s : Stream) (f : List Byte) (p : Nat) (fl : Bool) : Prop where
  data : V.data = f
  fail : s.fail = fl
  gGen : s.buf.gGen = V.gen
  pos : s.buf.g = p
  le : p ≤ f.length
  eGen : s.buf.eGen = V.gen
  eg : s.buf.eg = f.length

theorem W_setPtrs (V : Vec) {p : Nat} (h : p ≤ V.data.length) : W V ⟨setPtrs V p, false⟩ V.data p :=
  ⟨rfl, rfl, rfl, rfl, rfl, h, rfl, rfl⟩

theorem R_setPtrs (V : Vec) {p : Nat} (h : p ≤ V.data.length) : R V ⟨setPtrs V p, false⟩ V.data p false :=
  ⟨rfl, rfl, rfl, rfl, h, rfl, rfl⟩

theorem sputn_spec : ∀ (bs : List Byte) (V : Vec) (b : Buf) (f : List Byte) (p : Nat), W V ⟨b, false⟩ f p →
    ∃ V' b', sputn V b bs = some (V', b') ∧ W V' ⟨b', false⟩ (f.take p ++ bs ++ f.drop (p + bs.length)) (p + bs.length)
  | [], V, b, f, p, h => by
    refine ⟨V, b, rfl, ?_⟩
    simpa using h
  | c :: cs, V, b, f, p, h => by
    have hp := h.pos
    have hep := h.ep
    have hg := h.pGen
    have hle := h.le
    have hd := h.data
    have heg := h.eGen
    have heg2 := h.eg
    dsimp only at hp hep hg heg heg2
    rw [sputn, sputc, if_neg (by rw [hg]; simp)]
    by_cases hlt : b.p < b.ep
    · rw [if_pos hlt, if_pos (by rw [hd]; omega), Option.bind_some]
      dsimp only
      have hs : f.set p c = f.take p ++ c :: f.drop (p + 1) := by
        rw [List.set_eq_take_append_cons_drop, if_pos (by omega)]
      obtain ⟨V', b', h1, h2⟩ := sputn_spec cs ⟨V.data.set b.p c, V.gen⟩ { b with p := b.p + 1 } (f.set p c) (p + 1)
        ⟨by dsimp only; rw [hd, hp], rfl, hg, by dsimp only; rw [hp], by dsimp only; rw [hep, List.length_set], by rw [List.length_set]; omega,
          heg, by dsimp only; rw [List.length_set]; exact heg2⟩
      refine ⟨V', b', h1, ?_⟩
      have e1 : (f.set p c).take (p + 1) = f.take p ++ [c] := by
        rw [hs, List.take_append]; simp
        rw [List.take_of_length_le (by simp; omega)]
        rw [show p + 1 - min p f.length = 1 by omega]; rfl
      have e2 : (f.set p c).drop (p + 1 + cs.length) = f.drop (p + (c :: cs).length) := by
        rw [List.drop_set_of_lt (by omega)]; simp; congr 1; omega
      rw [e1, e2] at h2
      have e3 : p + (c :: cs).length = p + 1 + cs.length := by simp; omega
      rw [e3] at h2 ⊢
      simpa [List.append_assoc] using h2
    · have hpf : p = f.length := by omega
      rw [if_neg hlt, Option.bind_some]
      have hW : W (overflow V b c).1 ⟨(overflow V b c).2, false⟩ (f ++ [c]) (p + 1) := by
        unfold overflow
        exact ⟨by dsimp only; rw [hd], rfl, rfl, by dsimp only; rw [hd, hpf]; simp, by dsimp only; rw [hd], by simp [hpf],
          rfl, by dsimp only; rw [hd]⟩
      obtain ⟨V', b', h1, h2⟩ := sputn_spec cs _ _ (f ++ [c]) (p + 1) hW
      refine ⟨V', b', h1, ?_⟩
      have e1 : (f ++ [c]).take (p + 1) = f.take p ++ [c] := by
        rw [hpf, List.take_of_length_le (by simp)]; simp
      have e2 : (f ++ [c]).drop (p + 1 + cs.length) = f.drop (p + (c :: cs).length) := by
        rw [hpf, List.drop_of_length_le (by simp), List.drop_of_length_le (by simp)]
      rw [e1, e2] at h2
      have e3 : p + (c :: cs).length = p + 1 + cs.length := by simp; omega
      rw [e3] at h2 ⊢
      simpa [List.append_assoc] using h2

theorem write_spec {V : Vec} {s : Stream} {f : List Byte} {p : Nat} (h : W V s f p) (bs : List Byte) :
    ∃ V' s', write V s bs = some (V', s') ∧ W V' s' (f.take p ++ bs ++ f.drop (p + bs.length)) (p + bs.length) := by
  have hfl := h.fail
  obtain ⟨b, fl⟩ := s
  dsimp only at hfl
  subst hfl
  obtain ⟨V', b', h1, h2⟩ := sputn_spec bs V b f p h
  refine ⟨V', ⟨b', false⟩, ?_, h2⟩
  rw [write, if_neg (by simp), h1, Option.bind_some]

/-- `pubseekpos` with the output mode at a non-negative position. -/
theorem pubseekpos_out (V : Vec) (b : Buf) (n : Nat) : ∃ V', pubseekpos V b n true = some (.ok (V', setPtrs V' n, n)) ∧
    V'.data = V.data ++ List.replicate (n - V.data.length) 0#8 ∧ n ≤ V'.data.length := by
  unfold pubseekpos seekpos
  by_cases h : (n : Int) ≤ V.data.length
  · rw [if_pos ⟨by omega, h⟩]
    have hn : n ≤ V.data.length := by omega
    refine ⟨V, ?_, by rw [Nat.sub_eq_zero_of_le hn]; simp, hn⟩
    dsimp only
    rw [if_neg (by omega), gpos, if_pos ⟨rfl, rfl⟩]
    rfl
  · rw [if_neg (by omega), if_pos rfl, if_neg (by omega)]
    refine ⟨⟨V.data ++ List.replicate (n - V.data.length) 0#8, V.gen + 1⟩, ?_, rfl, ?_⟩
    · dsimp only
      rw [if_neg (by omega), gpos, if_pos ⟨rfl, rfl⟩]
      rfl
    · simp; omega

theorem pubseekpos_neg (V : Vec) (b : Buf) {n : Int} (h : n < 0) : pubseekpos V b n true = some (.error "length_error") := by
  unfold pubseekpos seekpos
  rw [if_neg (by omega), if_pos rfl, if_pos h]

/-- `pubseekpos` for input. -/
theorem pubseekpos_in (V : Vec) (b : Buf) (n : Int) (h : 0 ≤ n ∧ n ≤ V.data.length) :
    pubseekpos V b n false = some (.ok (V, setPtrs V n.toNat, n)) := by
  unfold pubseekpos seekpos
  rw [if_pos h]
  dsimp only
  rw [if_neg (by omega), gpos, if_pos ⟨rfl, rfl⟩, Option.bind_some]
  have : ((setPtrs V n.toNat).g : Int) = n := by change ((n.toNat : Nat) : Int) = n; omega
  rw [this]

theorem pubseekpos_in_neg (V : Vec) (b : Buf) (n : Int) (h : ¬ (0 ≤ n ∧ n ≤ V.data.length)) :
    pubseekpos V b n false = some (.ok (V, b, -1)) := by
  unfold pubseekpos seekpos
  rw [if_neg h, if_neg (by simp)]
  rfl

theorem sgetn_spec : ∀ (n : Nat) (V : Vec) (b : Buf) (f : List Byte) (p : Nat) , R V ⟨b, false⟩ f p false →
    ∃ b', sgetn V b n = some ((f.drop p).take n, b') ∧ R V ⟨b', false⟩ f (p + ((f.drop p).take n).length) false
  | 0, V, b, f, p, h => ⟨b, by simp [sgetn], by simpa using h⟩
  | n + 1, V, b, f, p, h => by
    have hg := h.gGen
    have he := h.eGen
    have hp := h.pos
    have hle := h.le
    have heg := h.eg
    have hd := h.data
    dsimp only at hg he hp heg
    rw [sgetn, sbumpc, if_neg (by rw [hg, he]; simp)]
    by_cases hlt : b.g < b.eg
    · have hpl : p < f.length := by omega
      rw [if_pos hlt, hd, hp, List.getElem?_eq_getElem hpl, Option.bind_some, Option.bind_some]
      dsimp only
      obtain ⟨b', h1, h2⟩ := sgetn_spec n V { b with g := p + 1 } f (p + 1) ⟨hd, rfl, hg, rfl, by omega, he, heg⟩
      have ed : (f.drop p).take (n + 1) = f[p] :: (f.drop (p + 1)).take n := by
        rw [List.drop_eq_getElem_cons hpl, List.take_succ_cons]
      refine ⟨b', ?_, ?_⟩
      · rw [h1, Option.bind_some, ed]
      · rw [ed, List.length_cons, show p + (((f.drop (p + 1)).take n).length + 1) = p + 1 + ((f.drop (p + 1)).take n).length by omega]
        exact h2
    · have : f.drop p = [] := List.drop_of_length_le (by omega)
      rw [if_neg hlt, Option.bind_some]
      refine ⟨b, by rw [this]; rfl, ?_⟩
      rw [this]
      simpa using h

theorem read_spec {V : Vec} {s : Stream} {f : List Byte} {p : Nat} (h : R V s f p false) (n : Nat) :
    ∃ s', read V s n = some (s', (f.drop p).take n) ∧
      R V s' f (p + ((f.drop p).take n).length) (decide (((f.drop p).take n).length < n)) := by
  have hfl := h.fail
  obtain ⟨b, fl⟩ := s
  dsimp only at hfl
  subst hfl
  obtain ⟨b', h1, h2⟩ := sgetn_spec n V b f p h
  refine ⟨⟨b', decide (((f.drop p).take n).length < n)⟩, ?_, ?_⟩
  · rw [read, if_neg (by simp), h1, Option.bind_some]
  · exact ⟨h2.data, rfl, h2.gGen, h2.pos, h2.le, h2.eGen, h2.eg⟩

end Sdsl.RamFs
