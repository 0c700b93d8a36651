/-
  Fuzzy sampling of the suffix array and of its inverse: in every block of `dens` suffixes one suffix is sampled; it is chosen such that the rows of the samples form
  few increasing runs.
-/
import Verif.CsaNew
import Verif.CsaPsi

namespace Sdsl.Csa

/-- The inner loop of `_fuzzy_sa_sampling`, csa_sampling_strategy.hpp:308-317: `hi` is `i+sample_dens`, `pm` is `pos_min`, `pc` is `pos_cnd`.
    Every iteration uses one unit of `fuel`. -/
def fuzzyScan (isa : Arr) (n prev hi : Nat) : Nat → Nat → Nat → Nat → Option (Nat × Nat)
  | fuel, j, pm, pc =>
    if j < hi ∧ j < n then match fuel with
      | 0 => none
      | fuel + 1 => do
        let x ← isa.get j
        let m ← isa.get pm
        let pm := if x < m then j else pm
        if prev ≤ x then
          if pc = n then fuzzyScan isa n prev hi fuel (j + 1) pm j
          else do
            let c ← isa.get pc
            fuzzyScan isa n prev hi fuel (j + 1) pm (if x < c then j else pc)
        else fuzzyScan isa n prev hi fuel (j + 1) pm pc
    else some (pm, pc)
termination_by fuel => fuel

/-- The suffix that is sampled in the block that starts at `i`, csa_sampling_strategy.hpp:306-321 (`runs` is not used). -/
def fuzzyBlock (isa : Arr) (n dens prev i : Nat) : Option Nat := do
  let x ← isa.get i
  let r ← fuzzyScan isa n prev (add64 i dens) n (i + 1) i (if prev ≤ x then i else n)
  pure (if r.2 = n then r.1 else r.2)

/-- The loop of `_fuzzy_sa_sampling`, csa_sampling_strategy.hpp:305-326: `mi`, `ms` are `marked_isa`, `marked_sa`. Every iteration uses one unit of `fuel`. -/
def fuzzyLoop (isa : Arr) (n dens : Nat) : Nat → Nat → Nat → Nat → List Bool → Arr → List Bool → Option (List Bool × Arr × List Bool)
  | fuel, i, cnt, prev, mi, inv, ms =>
    if i < n then match fuel with
      | 0 => none
      | fuel + 1 => do
        let p ← fuzzyBlock isa n dens prev i
        let prev ← isa.get p
        let mi ← Bv.set mi p true
        let inv ← inv.set cnt prev
        let ms ← Bv.set ms prev true
        fuzzyLoop isa n dens fuel (add64 i dens) (cnt + 1) prev mi inv ms
    else some (mi, inv, ms)
termination_by fuel => fuel

/-- The members of `_fuzzy_sa_sampling`, csa_sampling_strategy.hpp:256-261: `m_marked_sa`, `m_marked_isa`, `m_inv_perm`. -/
structure Fuzzy where
  markedSa : List Bool
  markedIsa : List Bool
  inv : Wt

/-- `_fuzzy_sa_sampling(cconfig)`, csa_sampling_strategy.hpp:285-346, for a suffix array in the cache; `m_inv_perm` is a `wt_int` (`bit_compress` does not change the values). -/
def fuzzy (dens : Nat) (sa : List Nat) : Option Fuzzy := do
  let isa ← constructIsa sa
  let w ← hiW isa.xs.length
  let r ← fuzzyLoop isa isa.xs.length dens isa.xs.length 0 0 0 (List.replicate isa.xs.length false) (Arr.new ((isa.xs.length + dens - 1) / dens) 0 w) (List.replicate isa.xs.length false)
  let ranks ← r.2.1.xs.mapM (fun x => Bv.rank true r.2.2 x)
  let W ← newWt .wtInt ranks
  pure ⟨r.2.2, r.1, W⟩

/-- `is_sampled`, csa_sampling_strategy.hpp:361-364, and `operator[]`, 367-370. -/
def Fuzzy.sample (s : Fuzzy) : SaSample :=
  ⟨fun i => Bv.get s.markedSa i, fun i => do
    let r ← Bv.rank true s.markedSa i
    let k ← s.inv.select 1 r
    Bv.select true s.markedIsa (k + 1)⟩

/-- The pair that `sample_leq` and `sample_qeq` return for the block `ci`, csa_sampling_strategy.hpp:874-875 and 892-893. -/
def Fuzzy.isaPair (s : Fuzzy) (ci : Nat) : Option (Nat × Nat) := do
  let j ← Bv.select true s.markedIsa (ci + 1)
  let x ← s.inv.get ci
  let v ← Bv.select true s.markedSa (x + 1)
  pure (v, j)

/-- `_fuzzy_isa_sampling_support::sample_leq`, csa_sampling_strategy.hpp:861-876, and `sample_qeq`, 879-894. -/
def Fuzzy.isaSample (s : Fuzzy) (dens : Nat) : IsaSample :=
  ⟨fun i => do
    let j ← Bv.select true s.markedIsa (i / dens + 1)
    if i < j then s.isaPair (if 0 < i / dens then i / dens - 1 else sub64 s.inv.size 1) else s.isaPair (i / dens),
  fun i => do
    let j ← Bv.select true s.markedIsa (i / dens + 1)
    if j < i then s.isaPair (if i / dens < sub64 s.inv.size 1 then i / dens + 1 else 0) else s.isaPair (i / dens)⟩

end Sdsl.Csa
