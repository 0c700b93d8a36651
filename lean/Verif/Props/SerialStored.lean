import Verif.SerialBuilt
import Verif.Props.SerialAnswers

/-! # C92: every support that a constructor builds can be stored

The theorems of C92 speak about support objects whose contents are those that the constructor computes. Here: for every bit vector there are
such objects, so that nothing is lost by speaking about objects. -/
namespace Sdsl.Props
open Sdsl.Serial Sdsl.Spec
open IntVec (Byte)

/-- C92: for every bit vector the constructors of `rank_support_v`, `rank_support_v5` and `select_support_mcl` succeed and their results are
the contents of objects, whose members are possible, and which point to the vector. -/
theorem C92_stored (pat : Pat) (junk : Nat → Word) (junk' : Nat → Nat) {v : IntVec} (hv : okVec 1 v none) (hs : v.size + 4095 < 2 ^ 64) (p : Ptr) :
    (∃ x : RankSup, Rank.V.build pat junk v = some (wordsOf x.m_basic_block) ∧ okVec 64 x.m_basic_block none ∧ x.m_v = p) ∧
    (∃ x : RankSup, Rank.V5.build pat junk v = some (wordsOf x.m_basic_block) ∧ okVec 64 x.m_basic_block none ∧ x.m_v = p) ∧
    (∃ x : SelMcl, Select.mclBuild pat junk' v = some x.toMcl ∧ okParts x ∧ x.m_v = p) := by
  refine ⟨?_, ?_, ?_⟩
  · obtain ⟨bb, e, -⟩ := C18_rank_v pat junk v hv.1 hv.2.1
    have hl := V_build_len e
    have hb : bb.length * 64 < 2 ^ 64 := by unfold IntVec.capWords at hl; omega
    obtain ⟨h1, h2⟩ := words_store bb hb
    exact ⟨⟨p, ⟨bb.length * 64, bb, 64⟩⟩, by simp only [h2, e], h1, rfl⟩
  · obtain ⟨bb, e, -⟩ := C19_rank_v5_partial pat junk v hv.1 hv.2.1
    have hl := V5_build_len e
    have hb : bb.length * 64 < 2 ^ 64 := by unfold IntVec.capWords at hl; omega
    obtain ⟨h1, h2⟩ := words_store bb hb
    exact ⟨⟨p, ⟨bb.length * 64, bb, 64⟩⟩, by simp only [h2, e], h1, rfl⟩
  · obtain ⟨t, e, h2, -⟩ := Select.mclBuild_ok (pat := pat) (junk := junk') hv.1.fit (by unfold IntVec.capWords; omega)
    have hle := countTrue_le (occ pat v.data) v.size
    have hc : t.argCnt = countTrue (occ pat v.data) v.size := h2
    obtain ⟨x, h3, h4, h5⟩ := mcl_store e (by omega) p
    exact ⟨x, by rw [h3, e], h4, h5⟩

/-- Three bits. -/
example : okVec 1 exBits none ∧ exBits.size + 4095 < 2 ^ 64 ∧ exBits.size = 3 := ⟨exBits_ok, by decide, rfl⟩

end Sdsl.Props
