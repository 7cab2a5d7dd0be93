import Verif.Model.Aggregator
import Mathlib.Data.Rat.Floor

/-!
# The matrix hierarchy of AMG, sequential case: dune/istl/paamg/matrixhierarchy.hh

`SequentialInformation`: one process, so sums over processes are the local values, nothing is redistributed, the index sets are not
coarsened (`IndicesCoarsener<SequentialInformation,E>::coarsen` returns its argument `noAggregates`, dune/istl/paamg/indicescoarsener.hh:393-407)
and nothing is published (dune/istl/paamg/globalaggregates.hh:219-231). The dependency criterion (`buildDependency`) is an arbitrary function of
the level (finest or not) and the matrix. The quotient of the coarsening rate is exact.
-/

namespace Istl
namespace Amg
variable {B : Type}

/-- The parameters `build` reads besides those of the aggregation; a negative `maxLevel` acts like 0.
dune/istl/paamg/parameters.hh:259-306. -/
structure HierCrit where
  maxLevel : Nat
  coarsenTarget : Int
  minRate : ℚ

/-- What the object holds: `matrices_` (finest first) and `aggregatesMaps_`. dune/istl/paamg/matrixhierarchy.hh:214-225. -/
structure MH (B : Type) where
  mats : List (SpMat B)
  maps : List (List Agg)

/-- The test for a breakdown of the coarsening rate. dune/istl/paamg/matrixhierarchy.hh:570. -/
def rateBreakdown (h : HierCrit) (unknowns noAggregates : Nat) : Prop :=
  noAggregates = 0 ∨ (unknowns : ℚ) / (noAggregates : ℚ) < h.minRate

instance (h : HierCrit) (u k : Nat) : Decidable (rateBreakdown h u k) := by unfold rateBreakdown; infer_instance

/-- The part of the loop body after the aggregation: the sparsity pattern and the values of the coarse matrix; its stored values are
uninitialised (`junk`) before. dune/istl/paamg/matrixhierarchy.hh:598-671. -/
def galerkinLevel [Add B] [Zero B] (fuel : Nat) (junk : B) (A : SpMat B) (G : Graph) (b : BuildSt) : Option (Res (SpMat B)) :=
  match buildPattern G fuel b.st.agg (b.con + b.iso) with
  | none => none
  | some (.ok rows) => some (calculate .ok A ((List.range A.n).map b.st.agg) (patternMat (b.con + b.iso) rows junk))
  | some (.throw e) => some (.throw e)
  | some .ub => some .ub

/-- The loop over the levels; the first argument counts the passes left, `A` is `*mlevel`, `unknowns` is `dunknowns`. A map made for a
level that turns out not to be coarsened is removed again. dune/istl/paamg/matrixhierarchy.hh:433-673. -/
def buildLevels [Add B] [Zero B] (dep : Bool → SpMat B → Props) (c : Crit) (h : HierCrit) (fuel : Nat) (junk : B) :
    Nat → Nat → SpMat B → Nat → MH B → Option (Res (MH B))
  | 0, _, _, _, s => some (.ok s)
  | todo + 1, level, A, unknowns, s =>
    if (unknowns : Int) ≤ h.coarsenTarget then some (.ok s)
    else match matrixGraph A with
      | .throw e => some (.throw e)
      | .ub => some .ub
      | .ok G =>
        match buildAggregates G (dep (level == 0) A) c fuel with
        | none => none
        | some (.throw e) => some (.throw e)
        | some .ub => some .ub
        | some (.ok b) =>
          if rateBreakdown h unknowns (b.con + b.iso) then some (.ok s)
          else match galerkinLevel fuel junk A G b with
            | none => none
            | some (.throw e) => some (.throw e)
            | some .ub => some .ub
            | some (.ok C) =>
              buildLevels dep c h fuel junk todo (level + 1) C (b.con + b.iso)
                ⟨s.mats ++ [C], s.maps ++ [(List.range A.n).map b.st.agg]⟩

/-- `MatrixHierarchy(fineMatrix, pinfo)`. dune/istl/paamg/matrixhierarchy.hh:391-399 (the category check always succeeds here). -/
def MH.ctor (A : SpMat B) : MH B := ⟨[A], []⟩

/-- `build(criterion)` on a fresh object: the level loop, then an empty map for the coarsest level.
dune/istl/paamg/matrixhierarchy.hh:401-739. -/
def MH.build [Add B] [Zero B] (dep : Bool → SpMat B → Props) (c : Crit) (h : HierCrit) (fuel : Nat) (junk : B) (A : SpMat B) :
    Option (Res (MH B)) :=
  match buildLevels dep c h fuel junk h.maxLevel 0 A A.n (MH.ctor A) with
  | some (.ok s) => some (.ok { s with maps := s.maps ++ [[]] })
  | r => r

/-- Loop body of `recalculateGalerkin`. dune/istl/paamg/matrixhierarchy.hh:921-926. -/
def recalcStep [Add B] [Zero B] (maps : List (List Agg)) (l : Nat) (mats : List (SpMat B)) : Res (List (SpMat B)) := do
  let fine ← rd mats l
  let amap ← rd maps l
  let coarse ← rd mats (l + 1)
  let C ← calculate .ok fine amap coarse
  wr mats (l + 1) C

/-- `recalculateGalerkin(copyFlags)`. dune/istl/paamg/matrixhierarchy.hh:900-936. -/
def MH.recalculate [Add B] [Zero B] (s : MH B) : Res (MH B) := do
  let mats ← forRangeM (s.mats.length - 1) (recalcStep s.maps) s.mats
  .ok { s with mats := mats }

/-- `coarsenVector(hierarchy)` for a hierarchy with one vector: the sizes of the vectors of all levels.
dune/istl/paamg/matrixhierarchy.hh:843-868. -/
def MH.coarsenVector (s : MH B) (fineSize : Nat) : List Nat := fineSize :: (s.mats.drop 1).map SpMat.n

/-- Loop body of `coarsenSmoother`. dune/istl/paamg/matrixhierarchy.hh:884-889. -/
def smootherStep (s : MH B) (l : Nat) (sm : List (SpMat B × List Agg)) : Res (List (SpMat B × List Agg)) := do
  let m ← rd s.mats l
  let a ← rd s.maps l
  .ok (sm ++ [(m, a)])

/-- `coarsenSmoother(smoothers, args)`: the matrices and maps the smoothers are constructed with; `maxlevels() = levels()` in the
sequential case, so the coarsest level gets none. dune/istl/paamg/matrixhierarchy.hh:870-898. -/
def MH.coarsenSmoother (s : MH B) : Res (List (SpMat B × List Agg)) :=
  forRangeM (s.mats.length - 1) (smootherStep s) []

/-- The destructor: the order in which the elements of `aggregatesMaps_` are deleted. `levels` is `matrices_.levels()`; the maps are
visited from the back, and dereferencing past the front is undefined. dune/istl/paamg/matrixhierarchy.hh:827-841. -/
def MH.destroy {M : Type} (levels : Nat) (maps : List M) : Res (List M) := do
  let gone ← forRangeM (levels - 1) (fun l gone => do let m ← rd maps.reverse l; .ok (gone ++ [m])) []
  let m ← rd maps.reverse (levels - 1)
  .ok (gone ++ [m])

/-! ## Numbers of the coarsest aggregates on the finest level -/

/-- `m = max(*iter, m)` over the entries below `ISOLATED`. dune/istl/paamg/matrixhierarchy.hh:775-779. -/
def maxAggregate (map : List Agg) : Nat :=
  map.foldl (fun m v => match v with | .id a => max a m | _ => m) 0

/-- The `while` loop drawing numbers until one is new; `rnd k` is the `k`-th value of `rand()/(RAND_MAX+1.0)`.
dune/istl/paamg/matrixhierarchy.hh:789-790. -/
def drawNew (rnd : Nat → ℚ) (size : Nat) (used : List Nat) : Nat → Nat → Option (Nat × Nat)
  | 0, _ => none
  | fuel + 1, k =>
    let x := ⌊rnd k * size⌋.toNat
    if x ∈ used then drawNew rnd size used fuel (k + 1) else some (x, k + 1)

/-- Loop body: the first attempt casts the random number to an integer before the multiplication.
dune/istl/paamg/matrixhierarchy.hh:786-791. -/
def drawOne (rnd : Nat → ℚ) (size fuel : Nat) (s : List Nat × Nat) : Option (List Nat × Nat) :=
  let x := ⌊rnd s.2⌋.toNat * size
  if x ∈ s.1 then (drawNew rnd size s.1 fuel (s.2 + 1)).map fun r => (s.1 ++ [r.1], r.2)
  else some (s.1 ++ [x], s.2 + 1)

/-- The loop over the coarse vector; the numbers drawn so far are both `used` and the entries written.
dune/istl/paamg/matrixhierarchy.hh:781-792. -/
def drawAll (rnd : Nat → ℚ) (size fuel : Nat) : Nat → List Nat × Nat → Option (List Nat × Nat)
  | 0, s => some s
  | todo + 1, s => (drawOne rnd size fuel s).bind (drawAll rnd size fuel todo)

/-- The two vectors `tmp`, `data` and which one `coarse` points to. dune/istl/paamg/matrixhierarchy.hh:752-769. -/
structure TwoBufs where
  tmp : List Nat
  data : List Nat
  coarseIsData : Bool

/-- `*coarse` -/
def TwoBufs.coarse (b : TwoBufs) : List Nat := if b.coarseIsData then b.data else b.tmp
/-- `*coarse = v` -/
def TwoBufs.setCoarse (b : TwoBufs) (v : List Nat) : TwoBufs := if b.coarseIsData then { b with data := v } else { b with tmp := v }
/-- `*fine = v` -/
def TwoBufs.setFine (b : TwoBufs) (v : List Nat) : TwoBufs := if b.coarseIsData then { b with tmp := v } else { b with data := v }

/-- Loop body: prolongation with damping 1 to a zero vector, then `std::swap(coarse, fine)`.
dune/istl/paamg/matrixhierarchy.hh:802-807. -/
def projectStep (b : TwoBufs) (map : List Agg) : Res TwoBufs := do
  let (c, f) ← prolongate map b.coarse (List.replicate map.length 0) (1 : Nat)
  let b := (b.setCoarse c).setFine f
  .ok { b with coarseIsData := !b.coarseIsData }

/-- `getCoarsestAggregatesOnFinest(data)`; dereferencing the map before the last one is undefined if there is none.
dune/istl/paamg/matrixhierarchy.hh:745-813. -/
def MH.coarsestOnFinest (s : MH B) (rnd : Nat → ℚ) (fuel : Nat) (data : List Nat) : Option (Res (List Nat)) :=
  match s.maps.reverse with
  | _ :: last :: more =>
    match drawAll rnd (maxAggregate last + 1) fuel (maxAggregate last + 1) ([], 0) with
    | none => none
    | some num =>
      let b : TwoBufs := ⟨[], data, decide (s.maps.length % 2 ≠ 0)⟩
      some ((last :: more).foldlM projectStep (b.setCoarse num.1) >>= fun b => .ok b.data)
  | _ => some .ub

end Amg
end Istl
