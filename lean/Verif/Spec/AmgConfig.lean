import Verif.Model.AmgConfig

/-!
# Specification: what the keys of a ParameterTree mean to the AMG

The table of dune/istl/paamg/amg.hh:138-166 as predicates on the tree.
-/

namespace Istl
namespace Amg

/-- `x` is the value of the key, or the default if the key is absent. -/
def Reads {α : Type} (p : String → Option α) (t : PTree) (k : String) (d x : α) : Prop :=
  (t k = none ∧ x = d) ∨ ∃ s, t k = some s ∧ p s = some x

/-- If the key is present, its text is readable. -/
def Readable {α : Type} (p : String → Option α) (t : PTree) (k : String) : Prop :=
  ∀ s, t k = some s → ∃ x, p s = some x

/-- The sizes of aggregates that result if no explicit size is given: distance, smallest size, largest size. -/
inductive DefaultSizes (V : Conv) (t : PTree) : Nat → Nat → Nat → Prop where
  | plain : t "defaultAggregationSizeMode" = none → DefaultSizes V t 2 4 6
  | isotropic {s e : String} {dim d : Nat} : t "defaultAggregationSizeMode" = some s → V.lower s = "isotropic" →
      t "defaultAggregationDimension" = some e → V.size e = some dim → 1 ≤ d →
      (t "MaxAggregateDistance" = none ∧ d = 2 ∨
        t "MaxAggregateDistance" ≠ none ∧ ∃ f, t "maxAggregateDistance" = some f ∧ V.size f = some d) →
      DefaultSizes V t ((dim + 1) * (d - 1)) (d ^ dim) (d ^ dim * 3 / 2)
  | anisotropic {s e : String} {dim d : Nat} : t "defaultAggregationSizeMode" = some s → V.lower s = "anisotropic" →
      t "defaultAggregationDimension" = some e → V.size e = some dim → 1 ≤ d → 1 ≤ dim →
      (t "MaxAggregateDistance" = none ∧ d = 2 ∨
        t "MaxAggregateDistance" ≠ none ∧ ∃ f, t "maxAggregateDistance" = some f ∧ V.size f = some d) →
      DefaultSizes V t ((dim + 1) * (d - 1) + (dim - 1)) (d ^ dim) (d ^ dim * 3 / 2)

/-- The target size of the coarsest level: the key `coarsenTarget`, unless the accumulation mode is "successive". -/
def Target (V : Conv) (t : PTree) (x : Int) : Prop :=
  (∃ s, t "accumulationMode" = some s ∧ V.lower s = "successive" ∧ x = 2) ∨
  ((∀ s, t "accumulationMode" = some s → V.lower s ≠ "successive") ∧ Reads V.int t "coarsenTarget" 1000 x)

/-- The accumulation mode. -/
def AccuMode (V : Conv) (t : PTree) (a : Accu) : Prop :=
  (t "accumulationMode" = none ∧ a = .successiveAccu) ∨
  ∃ s, t "accumulationMode" = some s ∧
    (V.lower s = "none" ∧ a = .noAccu ∨ V.lower s = "atonce" ∧ a = .atOnceAccu ∨ V.lower s = "successive" ∧ a = .successiveAccu)

/-- The norm. -/
def NormIs (V : Conv) (t : PTree) (n : Norm) : Prop :=
  ∃ name index, Reads some t "strengthMeasure" "diagonal" name ∧ Reads V.int t "diagonalRowIndex" 0 index ∧
    (V.lower name = "diagonal" ∧ (∃ i : Nat, i ≤ 4 ∧ index = (i : Int) ∧ n = .diagonal i) ∨ V.lower name = "rowsum" ∧ n = .rowSum ∨
      V.lower name = "frobenius" ∧ n = .frobenius ∨ V.lower name = "one" ∧ n = .one)

/-- Everything the tree determines except the sizes of aggregates. -/
structure Configured (V : Conv) (t : PTree) (c : AmgChoice) : Prop where
  iterations : Reads V.int t "smootherIterations" 1 c.iterations
  relaxation : Reads V.double t "smootherRelaxation" 1 c.relaxation
  norm : NormIs V t c.norm
  symmetric : Reads V.bool t "criterionSymmetric" true c.symmetric
  maxLevel : Reads V.int t "maxLevel" 100 c.params.maxLevel
  coarsenTarget : Target V t c.params.coarsenTarget
  minCoarsenRate : (t "minCoarseningRate" = none ∧ c.params.minCoarsenRate = 6 / 5) ∨
    ∃ s n, t "minCoarseningRate" = some s ∧ V.int s = some n ∧ c.params.minCoarsenRate = (n : ℚ)
  accumulate : AccuMode V t c.params.accumulate
  dampingFactor : Reads V.double t "prolongationDampingFactor" (8 / 5) c.params.dampingFactor
  connectivity : Reads V.size t "maxAggregateConnectivity" 15 c.params.connectivity
  alpha : Reads V.double t "alpha" (1 / 3) c.params.alpha
  beta : Reads V.double t "beta" (1 / 100000) c.params.beta
  gamma : Reads V.size t "gamma" 1 c.params.gamma
  additive : Reads V.bool t "additive" false c.params.additive
  preSteps : Reads V.size t "preSteps" 2 c.params.preSmoothSteps
  postSteps : Reads V.size t "postSteps" 2 c.params.postSmoothSteps
  verbosity : Reads V.int t "verbosity" 0 c.params.debugLevel
  skipIsolated : c.params.skipiso = false

/-- The sizes of aggregates: an explicit key wins over the size mode. -/
def Sizes (V : Conv) (t : PTree) (c : AmgParams) : Prop :=
  ∃ dist lo hi, DefaultSizes V t dist lo hi ∧ Reads V.size t "maxAggregateDistance" dist c.maxDistance ∧
    Reads V.size t "minAggregateSize" lo c.minAggregateSize ∧ Reads V.size t "maxAggregateSize" hi c.maxAggregateSize

/-- The size mode asks for sizes that fit: a diameter of at least 1, a dimension of at least 1 if anisotropic, no overflow. -/
def Fits (V : Conv) (t : PTree) : Prop :=
  ∀ s e dim d, t "defaultAggregationSizeMode" = some s → t "defaultAggregationDimension" = some e → V.size e = some dim →
    (t "MaxAggregateDistance" = none ∧ d = 2 ∨
        t "MaxAggregateDistance" ≠ none ∧ ∃ f, t "maxAggregateDistance" = some f ∧ V.size f = some d) →
    1 ≤ d ∧ (V.lower s = "anisotropic" → 1 ≤ dim) ∧ d ^ dim * 3 / 2 < sizeMod ∧ (dim + 1) * (d - 1) + dim < sizeMod

/-- Every text the constructor looks at is readable and every name is known. -/
structure Valid (V : Conv) (t : PTree) : Prop where
  ints : ∀ k ∈ ["smootherIterations", "diagonalRowIndex", "maxLevel", "minCoarseningRate", "coarsenTarget", "verbosity"], Readable V.int t k
  doubles : ∀ k ∈ ["smootherRelaxation", "prolongationDampingFactor", "alpha", "beta"], Readable V.double t k
  sizes : ∀ k ∈ ["maxAggregateDistance", "minAggregateSize", "maxAggregateSize", "maxAggregateConnectivity", "gamma", "preSteps", "postSteps"],
    Readable V.size t k
  bools : ∀ k ∈ ["criterionSymmetric", "additive"], Readable V.bool t k
  norm : ∃ n, NormIs V t n
  accumulation : ∃ a, AccuMode V t a
  sizeMode : ∀ s, t "defaultAggregationSizeMode" = some s → (V.lower s = "isotropic" ∨ V.lower s = "anisotropic") ∧
    (∃ e dim, t "defaultAggregationDimension" = some e ∧ V.size e = some dim) ∧
    (t "MaxAggregateDistance" ≠ none → t "maxAggregateDistance" ≠ none)

/-- The keys the constructor looks at. -/
def amgKeys : List String :=
  ["smootherIterations", "smootherRelaxation", "strengthMeasure", "diagonalRowIndex", "criterionSymmetric", "maxLevel", "minCoarseningRate",
    "coarsenTarget", "accumulationMode", "prolongationDampingFactor", "defaultAggregationSizeMode", "defaultAggregationDimension",
    "MaxAggregateDistance", "maxAggregateDistance", "minAggregateSize", "maxAggregateSize", "maxAggregateConnectivity", "alpha", "beta",
    "gamma", "additive", "preSteps", "postSteps", "verbosity"]

end Amg
end Istl
