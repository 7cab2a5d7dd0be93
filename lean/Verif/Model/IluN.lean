import Verif.Model.Ilu

/-!
# ILU(n): symbolic and numeric phase of `blockILUDecomposition(A,n,ILU)`, dune/istl/ilu.hh:169-262
-/

namespace Istl
namespace IluN

/-- `std::map<size_t,int>` as the list of its (key, value) pairs in iteration order. dune/istl/ilu.hh:183. -/
abbrev GenMap := Row Nat

/-- `rowpattern.find(j)`. dune/istl/ilu.hh:214. -/
def mapFind : GenMap → Nat → Option Nat
  | [], _ => none
  | (k, g) :: m, j => if k = j then some g else mapFind m j

/-- `rowpattern[j] = g` for a key that is not in the map (or is already mapped to `g`). dune/istl/ilu.hh:195, 217. -/
def mapInsert : GenMap → Nat → Nat → GenMap
  | [], j, g => [(j, g)]
  | (k, h) :: m, j, g => if j < k then (j, g) :: (k, h) :: m else if j = k then (k, g) :: m else (k, h) :: mapInsert m j g

/-- Loop over the entries of row `k` right of its diagonal. dune/istl/ilu.hh:205-220. The generation is read back from the first
scalar of the block; simplification: the field type represents the generations exactly. -/
def fillFrom (n : Nat) (kj : List (Nat × Nat)) (pat : GenMap) : GenMap :=
  kj.foldl (fun pat e =>
    if e.2 < n then
      match mapFind pat e.1 with
      | none => mapInsert pat e.1 (e.2 + 1)
      | some _ => pat
    else pat) pat

/-- Body of the loop over the keys left of the diagonal: row `k` creates fill. A missing diagonal of row `k` makes `++kj` step past
the end of the row. dune/istl/ilu.hh:199-221. -/
def symStep (n : Nat) (gens : Nat → GenMap) (k : Nat) (pat : GenMap) : Res GenMap :=
  match mapFind pat k with
  | none => .ok pat
  | some g =>
    if g < n then do
      let p ← (gens k).find k
      match p with
      | none => .ub
      | some q => .ok (fillFrom n ((gens k).drop (q + 1)) pat)
    else .ok pat

/-- Elimination of row `i`: `gens k` is the finished row `k` of `ILU` holding generations. The map iterator visits, in ascending
order, exactly the keys below `i` present when it reaches them; if no key `>= i` exists it is dereferenced at the end of the map.
dune/istl/ilu.hh:189-222. -/
def symRow (n : Nat) (gens : Nat → GenMap) (i : Nat) (pat0 : GenMap) : Res GenMap := do
  let pat ← forRangeM i (symStep n gens) pat0
  if pat.any (fun e => i ≤ e.1) then .ok pat else .ub

/-- `rowpattern` initialised with the row of `A`. dune/istl/ilu.hh:191-195. -/
def initPattern {R : Type} (r : Row R) : GenMap := r.foldl (fun pat e => mapInsert pat e.1 0) []

/-- The symbolic phase; the row creation (create iterator, C04) stores the keys of the map in ascending order and the
generations are written into the new row. dune/istl/ilu.hh:185-233. -/
def symbolic {R : Type} (n : Nat) (A : SpMat R) : Res (Nat → GenMap) :=
  forRangeM A.n (fun i gens => do
    let r ← symRow n gens i (initPattern (A.row i))
    .ok (upd gens i r)) fun _ => []

variable {R : Type} [Ring R]

/-- The row of `ILU` cleared and then filled by the merge loop with the entries of `A`; the second argument is the columns of the
row of `ILU` still to be passed. dune/istl/ilu.hh:236-259. -/
def copyMerge : List (Nat × R) → List Nat → Row R
  | [], ps => ps.map fun p => (p, 0)
  | _, [] => []
  | (j, a) :: as, p :: ps =>
    if j = p then (p, a) :: copyMerge as ps
    else if j < p then copyMerge as (p :: ps)
    else (p, 0) :: copyMerge ((j, a) :: as) ps
termination_by as ps => as.length + ps.length

/-- The matrix `ILU` before the numeric factorisation. -/
def padded (A : SpMat R) (gens : Nat → GenMap) : SpMat R :=
  { n := A.n, m := A.m, row := fun i => copyMerge (A.row i) ((gens i).map Prod.fst) }

/-- `blockILUDecomposition(A,n,ILU)`. dune/istl/ilu.hh:174-262. -/
def ilun (I : BlockInv R) (n : Nat) (A : SpMat R) : Res (SpMat R) := do
  let gens ← symbolic n A
  Ilu.ilu0 I (padded A gens)

end IluN
end Istl
