import Verif.Model.ParSolve
import Verif.Spec.ParSolve
import Verif.Lemmas.Simulation2
import Verif.Props.C35
import Verif.Props.C55
import Mathlib.Data.Rat.Defs
import Mathlib.Algebra.Order.Ring.Rat

/-! # C56 — a parallel solver does what the sequential solver does on the global problem -/

namespace Istl
namespace Par
open Solver Finset

variable {B V K Rl : Type} [AddCommGroup B] [AddCommGroup V] [Field K] [Module K V]

/-- All solvers, any two sets of components that respect a representation of vectors. -/
theorem C56_all_solvers {X Y : Type} [Add X] [SMul K X] [Zero X] [Add Y] [SMul K Y] [Zero Y] [DecidableEq K]
    [Zero Rl] [One Rl] [Add Rl] [Mul Rl] [Div Rl] {R : Solver.Rel X Y} {E : Env K Rl X} {F : Env K Rl Y} (h : Sim R E F) {x b : X} {y c : Y}
    (h0 : R.start x y) (hb : R.rhs b c) : AllSolversAgree R E F x b y c where
  loop red maxit := loop_sim h red maxit h0 hb
  gradient red maxit := grad_sim h red maxit h0 hb
  cg red maxit := cg_sim h red maxit h0 hb
  bicgstab red maxit := bi_sim h red maxit h0 hb
  minres red maxit := min_sim h red maxit h0 hb
  gmres red maxit m fuel := gm_sim h red maxit m fuel h0 hb
  fgmres red maxit m fuel := fgm_sim h red maxit m fuel h0 hb
  gpcg red maxit m fuel := gp_sim h red maxit m fuel h0 hb
  rfcg red maxit m fuel := rfcg_sim h red maxit m fuel h0 hb
  cfcg red maxit m fuel := cfcg_sim h red maxit m fuel h0 hb

theorem parDot_eq {P : Nat} {pis : Nat → PIS} {sz : Nat → Nat} {G : Finset Nat} (hD : Decomp P pis sz G) (mul : V → V → K)
    {x y : Nat → Nat → V} {X Y : Nat → V} (hx : ConsistentAtOwner P pis x X) (hy : ConsistentAtOwner P pis y Y) :
    parDot mul P pis sz x y = ∑ g ∈ G, mul (X g) (Y g) := by
  obtain ⟨res, h1, h2⟩ := C35_dot hD mul x y X Y hx hy (fun _ => []) (fun _ _ => .inl rfl) (List.range P) (List.Perm.refl _)
  rw [← h2]
  unfold parDot allSum
  refine List.foldl_ext _ _ _ fun a p hp => ?_
  obtain ⟨m, hm⟩ := h1 p (List.mem_range.1 hp)
  dsimp only
  rw [hm]

theorem consistent_owner {P : Nat} {pis : Nat → PIS} {x : Nat → Nat → V} {X : Nat → V} (h : Consistent P pis x X) : ConsistentAtOwner P pis x X :=
  fun p hp e he _ => h p hp e he

theorem projected_owner {P : Nat} {pis : Nat → PIS} {x : Nat → Nat → V} {X : Nat → V} (h : Projected P pis x X) : ConsistentAtOwner P pis x X :=
  fun p hp e he ha => by rw [h p hp e he, if_neg (by rw [ha]; decide)]

theorem exceptOverlap_owner {P : Nat} {pis : Nat → PIS} {x : Nat → Nat → V} {X : Nat → V} (h : ConsistentExceptOverlap P pis x X) :
    ConsistentAtOwner P pis x X := fun p hp e he ha => h p hp e he (by rw [ha]; decide)

/-- The components of the overlapping case respect the representation. -/
theorem ovlp_sim {P : Nat} {pis : Nat → PIS} {sz : Nat → Nat} {G : Finset Nat} (hD : Decomp P pis sz G) (S : Env K Rl Unit)
    (β : BlockAct B V V) {A : Nat → SpMat B} {M : Nat → Nat → B} (hA : OverlapMat P pis sz G A M)
    (prec : Nat → Nat → (Nat → V) → (Nat → V) → (Nat → V)) (W : Nat → (Nat → V) → Nat → V) (order : Nat → List Nat)
    (hord : ∀ q, q < P → (order q).Perm ((List.range P).filter (· ≠ q)))
    (hW : ∀ k (v d : Nat → Nat → V) (D : Nat → V), Consistent P pis v (fun _ => 0) → Projected P pis d D →
      Consistent P pis (blockPrecApply (prec k) pis order v d) (W k D)) (mul : V → V → K) (nrm2 : V → K) (root : K → Rl) :
    Sim (ovlpRel P pis) (ovlpEnv S β P pis sz A prec order mul nrm2 root) (globalEnv S β G M W mul nrm2 root) where
  primal_any := consistent_owner
  dual_any := projected_owner
  pre {x y b c} h1 h2 := by
    obtain ⟨h3, h4⟩ := C54_pre hD order hord x b y h1
    refine ⟨h3, ?_⟩
    change ConsistentExceptCopy P pis (blockPrecPre (fun _ x b => (x, b)) pis order x b).2 c
    rw [h4]; exact h2
  post h := h
  subRhs {x y b c} h1 h2 := by
    have := C54_overlapping_applyscaleadd hD β hA (-1 : K) x b y c h1 h2
    intro p hp e he
    refine (this p hp e he).trans ?_
    dsimp only [globalEnv]
    rw [neg_one_smul, sub_eq_add_neg]
  subOp {x y b c} h1 h2 := by
    have := C54_overlapping_applyscaleadd hD β hA (-1 : K) x b y c h1 (fun p hp e he ha => by rw [h2 p hp e he, if_neg ha])
    intro p hp e he
    refine (this p hp e he).trans ?_
    dsimp only [globalEnv]
    rw [neg_one_smul, sub_eq_add_neg]
  op {x y} h := C54_overlapping_apply hD β hA x y h
  prec {b c} k h := hW k (fun _ _ => 0) b c (fun _ _ _ _ => rfl) h
  dot h1 h2 := parDot_eq hD mul h1 h2
  norm h1 := congrArg root (parDot_eq hD (fun a _ => nrm2 a) h1 h1)
  primal_add h1 h2 p hp e he := congrArg₂ (· + ·) (h1 p hp e he) (h2 p hp e he)
  primal_smul a h p hp e he := congrArg (a • ·) (h p hp e he)
  primal_zero _ _ _ _ := rfl
  dual_add {x y v w} h1 h2 p hp e he := by
    change x p e.loc + v p e.loc = if e.attr = .copy then 0 else y e.g + w e.g
    rw [h1 p hp e he, h2 p hp e he]
    split
    · exact add_zero 0
    · rfl
  dual_smul {x y} a h p hp e he := by
    change a • x p e.loc = if e.attr = .copy then 0 else a • y e.g
    rw [h p hp e he]
    split
    · exact smul_zero a
    · rfl
  dual_zero p hp e he := by
    change (0 : V) = if e.attr = .copy then 0 else 0
    rw [ite_self]
  lt := rfl
  finite := rfl
  isZero := rfl
  abs := rfl
  ofReal := rfl
  sqrt := rfl
  conj := rfl
  rsqrt := rfl
  tiny := rfl
  eps := rfl
  rotEps := rfl

/-- Overlapping case: every solver with `OverlappingSchwarzOperator`, `BlockPreconditioner` and the parallel scalar product, on any number
of processes, does exactly what the sequential solver does on the global problem with a certain preconditioner `W` (what the owners
compute): same iteration counts and defects, same exceptions, and on return a consistent solution with the values of the sequential one. -/
theorem C56_overlapping [DecidableEq K] [Zero Rl] [One Rl] [Add Rl] [Mul Rl] [Div Rl]
    {P : Nat} {pis : Nat → PIS} {sz : Nat → Nat} {G : Finset Nat} (hD : Decomp P pis sz G) (S : Env K Rl Unit)
    (β : BlockAct B V V) {A : Nat → SpMat B} {M : Nat → Nat → B} (hA : OverlapMat P pis sz G A M)
    (prec : Nat → Nat → (Nat → V) → (Nat → V) → (Nat → V))
    (hprec : ∀ k p v v' d d', (∀ i, i < sz p → v i = v' i ∧ d i = d' i) → ∀ i, i < sz p → prec k p v d i = prec k p v' d' i)
    (mul : V → V → K) (nrm2 : V → K) (root : K → Rl) :
    ∃ W : Nat → (Nat → V) → Nat → V,
      (∀ k D p, p < P → ∀ e ∈ pis p, e.attr = .owner → W k D e.g = prec k p (fun _ => 0) (localView pis D p) e.loc) ∧
      ∀ (order : Nat → List Nat), (∀ q, q < P → (order q).Perm ((List.range P).filter (· ≠ q))) → ∀ (x b : Nat → Nat → V) (X₀ B₀ : Nat → V),
        ConsistentAtOwner P pis x X₀ → ConsistentExceptCopy P pis b B₀ →
        AllSolversAgree (ovlpRel P pis) (ovlpEnv S β P pis sz A prec order mul nrm2 root) (globalEnv S β G M W mul nrm2 root) x b X₀ B₀ := by
  choose W hW1 hW2 using fun k => C54_block_preconditioner hD (prec k) (hprec k)
  exact ⟨W, hW1, fun order hord x b X₀ B₀ hx hb =>
    C56_all_solvers (ovlp_sim hD S β hA prec W order hord (fun k v d D hv hd => hW2 k order hord v d D hv hd) mul nrm2 root) hx hb⟩

/-- The components of the nonoverlapping case respect the representation. -/
theorem nov_sim {P : Nat} {pis : Nat → PIS} {sz : Nat → Nat} {G : Finset Nat} (hD : Decomp P pis sz G) (hN : NoCrossOwners P pis)
    (S : Env K Rl Unit) (β : BlockAct B V V) {A : Nat → SpMat B} {M : Nat → Nat → B} (hA : NonoverlapMat P pis sz G A M)
    (prec : Nat → Nat → (Nat → V) → (Nat → V) → (Nat → V))
    (hprec : ∀ k p v v' d d', (∀ i, i < sz p → v i = v' i ∧ d i = d' i) → ∀ i, i < sz p → prec k p v d i = prec k p v' d' i)
    (order : Nat → List Nat) (hord : ∀ q, q < P → (order q).Perm ((List.range P).filter (· ≠ q)))
    (mul : V → V → K) (nrm2 : V → K) (root : K → Rl) :
    Sim (novRel P pis) (novEnv S β P pis sz A prec order mul nrm2 root) (globalEnv S β G M
      (fun k D g => ∑ p ∈ range P, contribution (fun a => a ≠ .overlap) (pis p) (prec k p (fun _ => 0) (novView pis D p)) g) mul nrm2 root) := by
  have hloc : ∀ (alpha : K) (x loc : Nat → Nat → V) (c' : Nat → NovCache), (∀ p, p < P →
      novOpOn β (A p) (pis p) (remoteOf P pis p) p (sz p) alpha (x p) (fun _ => 0) ⟨true, [], []⟩ = .ok (loc p, c' p)) →
      ∀ p, p < P → loc p = novLocal β P pis sz A alpha x p := by
    intro alpha x loc c' h p hp
    unfold novLocal
    rw [h p hp]
  have hcomm : ∀ (f g : Nat → Nat → V), (∀ p, p < P → f p = g p) → ∀ q, q < P →
      addOwnerCopyToOwnerCopy pis f f q (order q) = addOwnerCopyToOwnerCopy pis g g q (order q) := by
    intro f g hfg q hq
    unfold addOwnerCopyToOwnerCopy forward
    rw [hfg q hq]
    refine List.foldl_ext _ _ _ fun d p hp => ?_
    have : p < P := by
      have := (hord q hq).mem_iff.1 hp
      simpa using (List.mem_filter.1 this).1
    rw [hfg p this]
  have hsub : ∀ {x b : Nat → Nat → V} {y c : Nat → V}, ConsistentExceptOverlap P pis x y →
      (ConsistentExceptOverlap P pis b c ∧ ∀ p, p < P → ∀ e ∈ pis p, e.attr = .overlap → b p e.loc = 0) →
      ConsistentExceptOverlap P pis (novScaleAdd pis order (novLocal β P pis sz A (-1 : K) x) b) (fun g => c g - globalMul β G M y g) ∧
      ∀ p, p < P → ∀ e ∈ pis p, e.attr = .overlap → novScaleAdd pis order (novLocal β P pis sz A (-1 : K) x) b p e.loc = 0 := by
    intro x b y c h1 h2
    obtain ⟨loc, c', l1, l2, l3⟩ := C55_applyscaleadd hD hN β hA (fun _ => ⟨true, [], []⟩) (fun p _ => .new) order hord (-1 : K) x b y c h1 h2.1
    have l4 := hloc (-1) x loc c' l1
    have l5 : ∀ q, q < P → ∀ i, novScaleAdd pis order loc b q i = novScaleAdd pis order (novLocal β P pis sz A (-1 : K) x) b q i := by
      intro q hq i
      change addOwnerCopyToOwnerCopy pis loc loc q (order q) i + b q i = addOwnerCopyToOwnerCopy pis _ _ q (order q) i + b q i
      rw [hcomm _ _ l4 q hq]
    refine ⟨fun p hp e he ha => ?_, fun p hp e he ha => ?_⟩
    · rw [← l5 p hp, l2 p hp e he ha]
      dsimp only
      rw [neg_one_smul, sub_eq_add_neg]
    · rw [← l5 p hp, l3 p hp e he ha, h2.2 p hp e he ha]
  exact {
    primal_any := exceptOverlap_owner
    dual_any := fun h => exceptOverlap_owner h.1
    pre := fun h1 h2 => ⟨h1, h2⟩
    post := fun h => h
    subRhs := fun h1 h2 => hsub h1 h2
    subOp := fun h1 h2 => hsub h1 h2
    op := by
      intro x y h
      obtain ⟨loc, c', l1, l2, l3⟩ := C55_apply (K := K) hD hN β hA (fun _ => ⟨true, [], []⟩) (fun p _ => .new) order hord x y h
      have l4 := hloc 1 x loc c' l1
      refine ⟨fun p hp e he ha => ?_, fun p hp e he ha => ?_⟩
      · have := l2 p hp e he ha
        unfold novApply at this
        rw [hcomm _ _ l4 p hp] at this
        exact this
      · have := l3 p hp e he ha
        unfold novApply at this
        rw [hcomm _ _ l4 p hp] at this
        exact this
    prec := fun {b c} k h => by
      exact C55_preconditioner hD (prec k) (hprec k) order hord (fun _ _ => 0) b c (fun _ _ _ _ => rfl) h.1 h.2
    dot := fun h1 h2 => parDot_eq hD mul h1 h2
    norm := fun h1 => congrArg root (parDot_eq hD (fun a _ => nrm2 a) h1 h1)
    primal_add := fun h1 h2 p hp e he ha => congrArg₂ (· + ·) (h1 p hp e he ha) (h2 p hp e he ha)
    primal_smul := fun a h p hp e he ha => congrArg (a • ·) (h p hp e he ha)
    primal_zero := fun _ _ _ _ _ => rfl
    dual_add := fun {x y v w} h1 h2 => ⟨fun p hp e he ha => congrArg₂ (· + ·) (h1.1 p hp e he ha) (h2.1 p hp e he ha), fun p hp e he ha => by
      change x p e.loc + v p e.loc = 0
      rw [h1.2 p hp e he ha, h2.2 p hp e he ha, add_zero]⟩
    dual_smul := fun {x y} a h => ⟨fun p hp e he ha => congrArg (a • ·) (h.1 p hp e he ha), fun p hp e he ha => by
      change a • x p e.loc = 0
      rw [h.2 p hp e he ha, smul_zero]⟩
    dual_zero := ⟨fun _ _ _ _ _ => rfl, fun _ _ _ _ _ => rfl⟩
    lt := rfl
    finite := rfl
    isZero := rfl
    abs := rfl
    ofReal := rfl
    sqrt := rfl
    conj := rfl
    rsqrt := rfl
    tiny := rfl
    eps := rfl
    rotEps := rfl }

/-- Nonoverlapping case: the same with `NonoverlappingSchwarzOperator`, `NonoverlappingBlockPreconditioner` and the parallel scalar
product; the preconditioner of the sequential solver is the sum of what the processes compute. -/
theorem C56_nonoverlapping [DecidableEq K] [Zero Rl] [One Rl] [Add Rl] [Mul Rl] [Div Rl]
    {P : Nat} {pis : Nat → PIS} {sz : Nat → Nat} {G : Finset Nat} (hD : Decomp P pis sz G) (hN : NoCrossOwners P pis)
    (S : Env K Rl Unit) (β : BlockAct B V V) {A : Nat → SpMat B} {M : Nat → Nat → B} (hA : NonoverlapMat P pis sz G A M)
    (prec : Nat → Nat → (Nat → V) → (Nat → V) → (Nat → V))
    (hprec : ∀ k p v v' d d', (∀ i, i < sz p → v i = v' i ∧ d i = d' i) → ∀ i, i < sz p → prec k p v d i = prec k p v' d' i)
    (order : Nat → List Nat) (hord : ∀ q, q < P → (order q).Perm ((List.range P).filter (· ≠ q)))
    (mul : V → V → K) (nrm2 : V → K) (root : K → Rl) (x b : Nat → Nat → V) (X₀ B₀ : Nat → V) (hx : ConsistentExceptOverlap P pis x X₀)
    (hb : ConsistentExceptOverlap P pis b B₀) (hb0 : ∀ p, p < P → ∀ e ∈ pis p, e.attr = .overlap → b p e.loc = 0) :
    AllSolversAgree (novRel P pis) (novEnv S β P pis sz A prec order mul nrm2 root) (globalEnv S β G M
      (fun k D g => ∑ p ∈ range P, contribution (fun a => a ≠ .overlap) (pis p) (prec k p (fun _ => 0) (novView pis D p)) g) mul nrm2 root)
      x b X₀ B₀ :=
  C56_all_solvers (nov_sim hD hN S β hA prec hprec order hord mul nrm2 root) hx ⟨hb, hb0⟩

/-! ### Example: the parallel CG solver for the Laplacian of C54 with Jacobi-like preconditioner `v = d/2` -/

/-- Integers acting on rationals. -/
def ratAct : BlockAct ℤ ℚ ℚ :=
  ⟨AddMonoidHom.mul.comp (Int.castAddHom ℚ), AddMonoidHom.mul.comp (Int.castAddHom ℚ), AddMonoidHom.mul.comp (Int.castAddHom ℚ)⟩

/-- Operations on scalars. -/
def demoScal : Env ℚ ℚ Unit where
  pre x b := (x, b)
  post x := x
  subOp x _ := x
  op x := x
  prec _ b := b
  dot _ _ := 0
  norm _ := 0
  lt a b := decide (a < b)
  finite d := decide (d ≤ 1000)
  isZero d := decide (d = 0)
  abs x := |x|
  ofReal x := x
  sqrt x := x
  conj x := x
  rsqrt x := x
  tiny := 1 / 10 ^ 30
  eps := 1 / 10 ^ 80
  rotEps := 1 / 10 ^ 15

/-- The parallel components. -/
def demoParEnv : Env ℚ ℚ (Nat → Nat → ℚ) :=
  ovlpEnv demoScal ratAct 2 demoOv (fun _ => 3) demoOvMat (fun _ _ _ d i => d i / 2) (fun q => [1 - q]) (fun a b => a * b) (fun a => a * a) id

/-- Right hand side 1, 0, 1 with wrong values at the copies. -/
def demoRhs (p i : Nat) : ℚ := (if p = 0 then [1, 0, 77] else [1, 0, 55]).getD i 0

/-- The hypotheses are met, and the parallel solver finds the solution 1, 1, 1 in two steps, on both processes. -/
example : ConsistentAtOwner 2 demoOv (fun _ _ => (0 : ℚ)) (fun _ => 0) ∧
    ConsistentExceptCopy 2 demoOv demoRhs (fun g => [1, 0, 1].getD g 0) ∧
    ((List.range 3).map ((cgApply demoParEnv (1 / 1000) 10 (fun _ _ => 0) demoRhs).x 0),
      (List.range 3).map ((cgApply demoParEnv (1 / 1000) 10 (fun _ _ => 0) demoRhs).x 1),
      (cgApply demoParEnv (1 / 1000) 10 (fun _ _ => 0) demoRhs).it.i, (cgApply demoParEnv (1 / 1000) 10 (fun _ _ => 0) demoRhs).it.converged) =
      ([1, 1, 1], [1, 1, 1], 2, true) := by
  refine ⟨?_, ?_, ?_⟩
  · intro p hp; interval_cases p <;> decide
  · intro p hp; interval_cases p <;> decide
  · decide +kernel

end Par
end Istl
