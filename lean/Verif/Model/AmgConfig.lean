import Verif.Basic
import Mathlib.Data.Rat.Cast.Order

/-!
# AMG configured by a ParameterTree

dune/istl/paamg/amg.hh (the constructor with a `ParameterTree`, `AMGCreator`) and the defaults of dune/istl/paamg/parameters.hh. A tree is
the function from keys to texts. How a text becomes a number (`ParameterTree::Parser`, dune-common) and `ToLower` are arbitrary functions;
a missing key or an unreadable text makes `get` throw a `RangeError`. Doubles are rationals. Not modelled: the construction of the
hierarchies that follows (see C59, C86), the compile-time restriction on the field type.
-/

namespace Istl
namespace Amg

/-- `size_t` has 64 bits. -/
@[irreducible] def sizeMod : Nat := 18446744073709551616

/-- `ParameterTree`: the value of a key. dune-common. -/
abbrev PTree := String → Option String

/-- Conversion of texts: `Parser<int>`, `Parser<size_t>`, `Parser<double>`, `Parser<bool>`, `ToLower`. dune-common. -/
structure Conv where
  int : String → Option Int
  size : String → Option Nat
  double : String → Option ℚ
  bool : String → Option Bool
  lower : String → String

/-- `get<T>(key)`. dune-common (contract). -/
def PTree.get {α : Type} (t : PTree) (p : String → Option α) (k : String) : Res α :=
  match t k with
  | none => .throw .rangeError
  | some s => match p s with
    | none => .throw .rangeError
    | some x => .ok x

/-- `get(key, default)`. dune-common (contract). -/
def PTree.getOr {α : Type} (t : PTree) (p : String → Option α) (k : String) (d : α) : Res α :=
  match t k with
  | none => .ok d
  | some _ => t.get p k

/-- `if (configuration.hasKey(key)) criterion.set...(configuration.get<T>(key))`. dune/istl/paamg/amg.hh:541-542 and many more. -/
def onKey {α C : Type} (t : PTree) (p : String → Option α) (k : String) (set : α → C → C) (c : C) : Res C :=
  match t k with
  | none => .ok c
  | some _ => do
    let x ← t.get p k
    .ok (set x c)

/-- `AccumulationMode`. dune/istl/paamg/parameters.hh:231-249. -/
inductive Accu where
  | noAccu
  | atOnceAccu
  | successiveAccu
  deriving DecidableEq, Repr

/-- The value of the enumerator, as `setCoarsenTarget(int)` receives it. dune/istl/paamg/parameters.hh:231-249. -/
def Accu.toInt : Accu → Int
  | .noAccu => 0
  | .atOnceAccu => 1
  | .successiveAccu => 2

/-- Members of `Parameters` and its bases. dune/istl/paamg/parameters.hh:76, 222-223, 383-400, 523-527. -/
structure AmgParams where
  alpha : ℚ
  beta : ℚ
  maxDistance : Nat
  minAggregateSize : Nat
  maxAggregateSize : Nat
  connectivity : Nat
  skipiso : Bool
  maxLevel : Int
  coarsenTarget : Int
  minCoarsenRate : ℚ
  dampingFactor : ℚ
  accumulate : Accu
  debugLevel : Int
  preSmoothSteps : Nat
  postSmoothSteps : Nat
  gamma : Nat
  additive : Bool
  deriving DecidableEq

/-- The constructors. dune/istl/paamg/parameters.hh:34-36, 95-98, 372-377, 516-521. -/
def AmgParams.default : AmgParams :=
  ⟨1 / 3, 1 / 100000, 2, 4, 6, 15, false, 100, 1000, 6 / 5, 8 / 5, .successiveAccu, 2, 2, 2, 1, false⟩

/-- Addition of `size_t`. -/
def addSize (a b : Nat) : Nat := (a + b) % sizeMod

/-- Multiplication of `size_t`. -/
def mulSize (a b : Nat) : Nat := a * b % sizeMod

/-- `x-1` for `size_t`. -/
def predSize (a : Nat) : Nat := if a = 0 then sizeMod - 1 else a - 1

/-- The loop of `setDefaultValuesIsotropic`: `csize` and `maxDistance_`. dune/istl/paamg/parameters.hh:114-117. -/
def isoLoop64 (diameter : Nat) : Nat → Nat → Nat → Nat × Nat
  | 0, csize, dist => (csize, dist)
  | dim + 1, csize, dist => isoLoop64 diameter dim (mulSize csize diameter) (addSize dist (predSize diameter))

/-- `setDefaultValuesIsotropic(dim, diameter)`. The conversion of `csize*1.5` to `size_t` is undefined if it does not fit; the product is
taken exactly (the double product is exact below 2^52). dune/istl/paamg/parameters.hh:109-120. -/
def setIso64 (dim diameter : Nat) (c : AmgParams) : Res AmgParams :=
  let r := isoLoop64 diameter dim 1 (predSize diameter)
  if r.1 * 3 / 2 < sizeMod then .ok { c with maxDistance := r.2, minAggregateSize := r.1, maxAggregateSize := r.1 * 3 / 2 } else .ub

/-- `setDefaultValuesAnisotropic(dim, diameter)`. dune/istl/paamg/parameters.hh:132-136. -/
def setAniso64 (dim diameter : Nat) (c : AmgParams) : Res AmgParams := do
  let c ← setIso64 dim diameter c
  .ok { c with maxDistance := addSize c.maxDistance (predSize dim) }

/-- The key `accumulationMode`. dune/istl/paamg/amg.hh:550-562. -/
def setAccumulation (V : Conv) (t : PTree) (c : AmgParams) : Res AmgParams :=
  match t "accumulationMode" with
  | none => .ok c
  | some s =>
    let mode := V.lower s
    if mode = "none" then .ok { c with accumulate := .noAccu }
    else if mode = "atonce" then .ok { c with accumulate := .atOnceAccu }
    else if mode = "successive" then .ok { c with coarsenTarget := Accu.successiveAccu.toInt }
    else .throw .invalidFactoryConfiguration

/-- The local variable `maxDistance`: note the capital letter of the key that is tested. dune/istl/paamg/amg.hh:571-573. -/
def diamOf (V : Conv) (t : PTree) : Res Nat :=
  match t "MaxAggregateDistance" with
  | none => .ok 2
  | some _ => t.get V.size "maxAggregateDistance"

/-- The key `defaultAggregationSizeMode`. dune/istl/paamg/amg.hh:567-581. -/
def setSizeMode (V : Conv) (t : PTree) (c : AmgParams) : Res AmgParams :=
  match t "defaultAggregationSizeMode" with
  | none => .ok c
  | some s => do
    let mode := V.lower s
    let dim ← t.get V.size "defaultAggregationDimension"
    let dist ← diamOf V t
    if mode = "isotropic" then setIso64 dim dist c
    else if mode = "anisotropic" then setAniso64 dim dist c
    else .throw .invalidFactoryConfiguration

/-- `createHierarchies(criterion, matrixptr, pinfo, configuration)` up to the call of the other `createHierarchies`: the criterion it is
called with. dune/istl/paamg/amg.hh:537-620. -/
def amgParams (V : Conv) (t : PTree) : Res AmgParams := do
  let c ← onKey t V.int "maxLevel" (fun x c => { c with maxLevel := x }) AmgParams.default
  let c ← onKey t V.int "minCoarseningRate" (fun x c => { c with minCoarsenRate := x }) c
  let c ← onKey t V.int "coarsenTarget" (fun x c => { c with coarsenTarget := x }) c
  let c ← setAccumulation V t c
  let c ← onKey t V.double "prolongationDampingFactor" (fun x c => { c with dampingFactor := x }) c
  let c ← setSizeMode V t c
  let c ← onKey t V.size "maxAggregateDistance" (fun x c => { c with maxDistance := x }) c
  let c ← onKey t V.size "minAggregateSize" (fun x c => { c with minAggregateSize := x }) c
  let c ← onKey t V.size "maxAggregateSize" (fun x c => { c with maxAggregateSize := x }) c
  let c ← onKey t V.size "maxAggregateConnectivity" (fun x c => { c with connectivity := x }) c
  let c ← onKey t V.double "alpha" (fun x c => { c with alpha := x }) c
  let c ← onKey t V.double "beta" (fun x c => { c with beta := x }) c
  let c ← onKey t V.size "gamma" (fun x c => { c with gamma := x }) c
  let c ← onKey t V.bool "additive" (fun x c => { c with additive := x }) c
  let c ← onKey t V.size "preSteps" (fun x c => { c with preSmoothSteps := x }) c
  let c ← onKey t V.size "postSteps" (fun x c => { c with postSmoothSteps := x }) c
  let v ← t.getOr V.int "verbosity" 0
  .ok { c with debugLevel := v }

/-- The norm that measures the strength of connections. dune/istl/paamg/amg.hh:471-505; dune/istl/paamg/aggregates.hh. -/
inductive Norm where
  | diagonal (i : Nat)
  | rowSum
  | frobenius
  | one
  deriving DecidableEq, Repr

/-- What the constructor decides: the arguments of the smoothers, norm, symmetric or unsymmetric criterion, parameters. -/
structure AmgChoice where
  iterations : Int
  relaxation : ℚ
  norm : Norm
  symmetric : Bool
  params : AmgParams
  deriving DecidableEq

/-- The choice of the norm. dune/istl/paamg/amg.hh:471-505. -/
def chooseNorm (name : String) (index : Int) : Res Norm :=
  if name = "diagonal" then
    match index with
    | 0 => .ok (.diagonal 0)
    | 1 => .ok (.diagonal 1)
    | 2 => .ok (.diagonal 2)
    | 3 => .ok (.diagonal 3)
    | 4 => .ok (.diagonal 4)
    | _ => .throw .invalidState
  else if name = "rowsum" then .ok .rowSum
  else if name = "frobenius" then .ok .frobenius
  else if name = "one" then .ok .one
  else .throw .notImplemented

/-- `AMG(matrixptr, configuration, pinfo)`. dune/istl/paamg/amg.hh:452-535, 537-620; defaults of the smoother arguments
dune/istl/paamg/smoother.hh:56-58. -/
def amgConfig (V : Conv) (t : PTree) : Res AmgChoice := do
  let it ← t.getOr V.int "smootherIterations" 1
  let w ← t.getOr V.double "smootherRelaxation" 1
  let name ← t.getOr some "strengthMeasure" "diagonal"
  let index ← t.getOr V.int "diagonalRowIndex" 0
  let norm ← chooseNorm (V.lower name) index
  let sym ← t.getOr V.bool "criterionSymmetric" true
  let c ← amgParams V t
  .ok ⟨it, w, norm, sym, c⟩

/-- The smoothers the factory knows. dune/istl/paamg/amg.hh:1188-1199. -/
inductive SmootherKind where
  | ssor | sor | jac | gs | ilu
  deriving DecidableEq, Repr

/-- The kinds of operators `makeAMG` is overloaded for (`other` is the first overload). dune/istl/paamg/amg.hh:1174-1228. -/
inductive OpKind where
  | matrixAdapter | overlapping | nonoverlapping | other
  deriving DecidableEq, Repr

/-- How the sequential smoother is wrapped. dune/istl/paamg/amg.hh:1189, 1212, 1233. -/
inductive Wrap where
  | bare | block | novlpBlock
  deriving DecidableEq, Repr

/-- The comparisons with the names of the smoothers. dune/istl/paamg/amg.hh:1188-1199. -/
def smootherOf (name : String) : Res SmootherKind :=
  if name = "ssor" then .ok .ssor
  else if name = "sor" then .ok .sor
  else if name = "jac" then .ok .jac
  else if name = "gs" then .ok .gs
  else if name = "ilu" then .ok .ilu
  else .throw .exception

/-- `makeAMG(op, smoother, config)`: smoother, its wrapper, and the choice of the constructor. dune/istl/paamg/amg.hh:1174-1244. -/
def makeAMG (V : Conv) (op : OpKind) (smoother : String) (t : PTree) : Res (SmootherKind × Wrap × AmgChoice) :=
  match op with
  | .other => .throw .exception
  | .matrixAdapter => do let s ← smootherOf smoother; let c ← amgConfig V t; .ok (s, .bare, c)
  | .overlapping => do let s ← smootherOf smoother; let c ← amgConfig V t; .ok (s, .block, c)
  | .nonoverlapping => do let s ← smootherOf smoother; let c ← amgConfig V t; .ok (s, .novlpBlock, c)

/-- `AMGCreator::operator()` for a field type convertible to its real type and matrices of dense blocks (`valid`).
dune/istl/paamg/amg.hh:1246-1276. -/
def amgCreator (V : Conv) (valid : Bool) (op : OpKind) (t : PTree) : Res (SmootherKind × Wrap × AmgChoice) :=
  if valid then do
    let s ← t.getOr some "smoother" "ssor"
    makeAMG V op s t
  else .throw .unsupportedType

end Amg
end Istl
