import Verif.Lemmas.FastAmg
import Verif.Props.C52

/-! # C53 — FastAMG: fused smoothing and residual update, the cycle -/

namespace Istl
namespace FastAmg
open Gsetc SpMat
variable {B X K : Type} [AddCommGroup X] [CommRing K] [Module K X]

/-- The pre-smoother of `FastAMG`. `x` becomes the result of one forward Gauss-Seidel sweep started at zero (whatever the old contents
of `x` and `d`), and, if `a_ij = a_ji` for all `i ≠ j`, the other vector becomes the defect `b - A x` of that result. -/
theorem C53_presmooth (β : BlockSolve B X X) (hβ : ∀ a (c : K) x, β.act a (c • x) = c • β.act a x) (A : SpMat B) (hS : A.Sorted)
    (hD : A.HasDiag) (hI : A.DiagInvertible β.act) (b x d : Nat → X) :
    ∃ x' d' y, presmooth β A b x d = .ok (x', d') ∧ bsorf β.act (solveLoc β) (1 : K) A b 0 = .ok y ∧
      (∀ i, i < A.n → x' i = y i) ∧ (∀ i, A.n ≤ i → x' i = x i ∧ d' i = d i) ∧
      (A.Square → A.BlockSymmetric β.act → ∀ i, i < A.n → d' i = b i - A.apply β.act x' i) := by
  obtain ⟨⟨x', d'⟩, h⟩ := presmooth_ok β A hS hD hI b x d
  obtain ⟨F, G, J, hF, -⟩ := sweep_ops β hβ A hS hD hI (1 : K)
  have hy := hF b 0
  exact ⟨x', d', _, h, hy, presmooth_eq_bsorf β A hS hD hI b x d _ _ h hy, presmooth_keep β A hS hD b x d _ h,
    fun hQ hB => presmooth_defect β A hS hD hQ hB b x d _ h⟩

/-- The post-smoother does one backward Gauss-Seidel sweep from `x`; no symmetry is needed. The other vector does not become the defect:
its entry `i` becomes `sum_{j<i} a_ij x_j` with the old `x`. -/
theorem C53_postsmooth (β : BlockSolve B X X) (hβ : ∀ a (c : K) x, β.act a (c • x) = c • β.act a x) (A : SpMat B) (hS : A.Sorted)
    (hD : A.HasDiag) (hI : A.DiagInvertible β.act) (b x d : Nat → X) :
    ∃ x' d', postsmooth β A b x d = .ok (x', d') ∧ bsorb β.act (solveLoc β) (1 : K) A b x = .ok x' ∧
      (∀ i, A.n ≤ i → d' i = d i) ∧ (∀ i, i < A.n → d' i = A.partSum β.act (· < i) x i) := by
  obtain ⟨F, G, J, -, hG, -⟩ := sweep_ops β hβ A hS hD hI (1 : K)
  have hy := hG b x
  obtain ⟨d', h1, h2, h3⟩ := postsmooth_eq_bsorb β A hS hD hI b x d _ hy
  exact ⟨_, d', h1, hy, h2, h3⟩

/-- `apply` of `FastAMG` computes one V-cycle (`mg`, the specification of C46): one forward Gauss-Seidel step, the recursive correction,
one backward Gauss-Seidel step on every level, whatever the hierarchies hold from earlier calls, or reports failure of the coarse solver.
This holds for `gamma = 1` with any coarse solver, and for every `gamma ≥ 1` with a direct one: with a direct coarse solver `gamma` has no
effect, there is no W-cycle. The argument `d` is not changed (unless there is a single level, where the code passes a copy). A failure
is only reported if there are at least two levels. -/
theorem C53_apply_is_the_V_cycle (β : BlockSolve B X X) (hβ : ∀ a (c : K) x, β.act a (c • x) = c • β.act a x) (S : Setup B X K)
    (hG : S.Good β) (hg : S.gamma = 1 ∨ 1 ≤ S.gamma ∧ S.Direct) (s : State X) (v d : Nat → X) (hv : Supp (S.mat 0).n v)
    (hd : Supp (S.mat 0).n d) (hr : Supp (S.mat 0).n (s.residual 0)) (h0 : S.coarsest = 0 → v = 0 ∨ S.Direct) :
    (∃ s', fastApply β S v d s = .ok (Amg.mg (vCycle β S) S.coarsest 0 d) s' ∧ (0 < S.coarsest → s'.d = d) ∧
      (0 < S.coarsest → Supp (S.mat 0).n (s'.residual 0)) ∧ (S.Converges → s'.conv = s.conv)) ∨
    (0 < S.coarsest ∧ ∃ s', fastApply β S v d s = .throw .mathError s' ∧ s'.conv = false ∧ (S.Converges → s.conv = false)) := by
  set t : State X := { s with cur := fineCursor, v := v, d := d } with ht
  have tc : t.cur = curAt S.coarsest 0 := by simp [ht, fineCursor, curAt]; omega
  have e : fastApply β S v d s = (do
      mgc β S (S.coarsest + 1) .user .user
      let s ← Cmd.get
      pure s.v : MG X (Nat → X)) t := rfl
  rw [e]
  rcases mgc_spec β hβ S hG hg S.coarsest 0 (by omega) t tc (fun _ => ⟨hv, hd, hr⟩) h0 with ⟨s', q, k, x, sp, bb⟩ | ⟨_, hp, s', q, c1, c2⟩
  · left
    refine ⟨s', ?_, fun h => bb (.inl h), fun h => (sp h).2, fun h => k.conv h⟩
    have q' : mgc β S (S.coarsest + 1) .user .user t = .ok () s' := q
    rw [Cmd.bind_ok q']
    change Out.ok s'.v s' = _
    have x' : s'.v = Amg.mg (vCycle β S) S.coarsest 0 d := x
    rw [x']
  · right
    exact ⟨hp, s', Cmd.bind_throw q, c1, c2⟩

/-- With symmetric matrices, restriction the transpose of prolongation and a symmetric coarse solver (what FastAMG builds: C45), `apply` is a
symmetric operator, as CG demands: if it returns `x` for `b` and `y` for `c` then `x^T c = b^T y`, whatever happened before or between. -/
theorem C53_symmetric {F : X → X → K} (hF : ScalarProd F) (β : BlockSolve B X X)
    (hβ : ∀ a (c : K) x, β.act a (c • x) = c • β.act a x) (S : Setup B X K) (hG : S.Good β) (hg : S.gamma = 1 ∨ 1 ≤ S.gamma ∧ S.Direct)
    (hA : ∀ l, l < S.coarsest → (S.mat l).Symmetric F β.act)
    (hT : ∀ l, l < S.coarsest → ∀ x y, blockDot F (S.mat (l + 1)).n (S.restr l x) y = blockDot F (S.mat l).n x (S.prol l y))
    (hC : ∀ b c, blockDot F (S.mat S.coarsest).n (S.solve 0 b).1 c = blockDot F (S.mat S.coarsest).n b (S.solve 0 c).1)
    (s t s' t' : State X) (b c x y : Nat → X) (hb : Supp (S.mat 0).n b) (hc : Supp (S.mat 0).n c) (hs : Supp (S.mat 0).n (s.residual 0))
    (ht : Supp (S.mat 0).n (t.residual 0)) (h1 : fastApply β S 0 b s = .ok x s') (h2 : fastApply β S 0 c t = .ok y t') :
    blockDot F (S.mat 0).n x c = blockDot F (S.mat 0).n b y := by
  have key : ∀ d l, l + d = S.coarsest → ∀ b c, blockDot F (S.mat l).n (Amg.mg (vCycle β S) d l b) c =
      blockDot F (S.mat l).n b (Amg.mg (vCycle β S) d l c) := by
    intro d
    induction d with
    | zero => intro l hl b c; obtain rfl : l = S.coarsest := by omega
              exact hC b c
    | succ d ih =>
      intro l hl b c
      have hlt : l < S.coarsest := by omega
      have hB := blockDot_scalarProd hF (S.mat l).n
      have hB' := blockDot_scalarProd hF (S.mat (l + 1)).n
      obtain ⟨P, Q, J, hP, hQ, -, -, hadj⟩ := sweep_ops β hβ (S.mat l) (hG.sorted l hlt) (hG.diag l hlt) (hG.inv l hlt) (1 : K)
      have pre : ∀ d, (vCycle β S).pre l 0 d = P (cut (S.mat l).n d) := fun d => by
        change result (bsorf β.act (solveLoc β) (1 : K) (S.mat l) d 0) = _
        rw [hP, map_zero, sub_zero]; exact zero_add _
      have post : ∀ d, (vCycle β S).post l 0 d = Q (cut (S.mat l).n d) := fun d => by
        change result (bsorb β.act (solveLoc β) (1 : K) (S.mat l) d 0) = _
        rw [hQ, map_zero, sub_zero]; exact zero_add _
      have cl : ∀ x y : Nat → X, blockDot F (S.mat l).n (cut (S.mat l).n x) y = blockDot F (S.mat l).n x y := fun x y =>
        blockDot_congr (fun i hi => by simp [cut, hi]) (fun _ _ => rfl)
      have cr : ∀ x y : Nat → X, blockDot F (S.mat l).n x (cut (S.mat l).n y) = blockDot F (S.mat l).n x y := fun x y =>
        blockDot_congr (fun _ _ => rfl) (fun i hi => by simp [cut, hi])
      have sm : ∀ x y, blockDot F (S.mat l).n ((vCycle β S).pre l 0 x) y = blockDot F (S.mat l).n x ((vCycle β S).post l 0 y) := fun x y => by
        rw [pre, post, ← cr, (hadj F hF (hA l hlt)).1, cl]
      have ms : ∀ x y, blockDot F (S.mat l).n ((vCycle β S).mat l x) y = blockDot F (S.mat l).n x ((vCycle β S).mat l y) :=
        matOp_symm β.act hβ (S.mat l) (hA l hlt)
      -- the cycle written out
      have out : ∀ b, Amg.mg (vCycle β S) (d + 1) l b =
          (let x1 := (vCycle β S).pre l 0 b
           let x2 := x1 + S.prol l (S.damp • Amg.mg (vCycle β S) d (l + 1) (S.restr l (b - (vCycle β S).mat l x1)))
           x2 + (vCycle β S).post l 0 (b - (vCycle β S).mat l x2)) := fun b => by
        have e0 : (b - (vCycle β S).mat l 0) = b := by rw [mat_zero, sub_zero]
        have hc' : ∀ r, (if d = 0 then (if (vCycle β S).gamma = 0 then 0 else ((vCycle β S).solve 0 r).1)
            else Amg.relax ((vCycle β S).mat (l + 1)) (Amg.mg (vCycle β S) d (l + 1)) r (vCycle β S).gamma 0) =
              Amg.mg (vCycle β S) d (l + 1) r := by
          intro r
          by_cases hd : d = 0
          · subst hd; rfl
          · rw [if_neg hd]
            change Amg.relax _ _ r 1 0 = _
            rw [Amg.relax, Amg.relax, mat_zero, sub_zero, zero_add]
        have ep : Amg.relax ((vCycle β S).mat l) ((vCycle β S).pre l 0) b (vCycle β S).preSteps 0 = (vCycle β S).pre l 0 b := by
          change Amg.relax _ _ b 1 0 = _
          rw [Amg.relax, Amg.relax, e0, zero_add]
        rw [Amg.mg]
        rw [ep]
        change Amg.relax _ _ b 1 _ = _
        rw [Amg.relax, Amg.relax, hc']
        rfl
      have half : ∀ b c, blockDot F (S.mat l).n (Amg.mg (vCycle β S) (d + 1) l b) c =
          blockDot F (S.mat l).n b ((vCycle β S).post l 0 c) + blockDot F (S.mat l).n b ((vCycle β S).pre l 0 c) -
          blockDot F (S.mat l).n ((vCycle β S).pre l 0 b) ((vCycle β S).mat l ((vCycle β S).pre l 0 c)) +
          S.damp * blockDot F (S.mat (l + 1)).n (Amg.mg (vCycle β S) d (l + 1) (S.restr l (b - (vCycle β S).mat l ((vCycle β S).pre l 0 b))))
            (S.restr l (c - (vCycle β S).mat l ((vCycle β S).pre l 0 c))) := by
        intro b c
        rw [out]
        dsimp only
        set x1 := (vCycle β S).pre l 0 b
        set M := Amg.mg (vCycle β S) d (l + 1) (S.restr l (b - (vCycle β S).mat l x1))
        have e1 : ∀ z, blockDot F (S.mat l).n (S.prol l (S.damp • M)) z = S.damp * blockDot F (S.mat (l + 1)).n M (S.restr l z) := fun z => by
          rw [hB.symm, ← hT l hlt, hB'.symm, hB'.smul]
        have p2 : ∀ u, blockDot F (S.mat l).n ((vCycle β S).post l 0 u) c = blockDot F (S.mat l).n u ((vCycle β S).pre l 0 c) := fun u => by
          rw [hB.symm, ← sm, hB.symm]
        have e2 := e1 (c - (vCycle β S).mat l ((vCycle β S).pre l 0 c))
        rw [hB.sub'] at e2
        rw [hB.add, hB.add, sm b c, p2, hB.sub, ms, hB.add]
        linear_combination e2
      rw [hB.symm b (Amg.mg _ _ _ c), half b c, half c b, ← sm b c, ← sm c b, ← ms, hB.symm b ((vCycle β S).pre l 0 c),
        hB.symm ((vCycle β S).mat l _) ((vCycle β S).pre l 0 c),
        ih (l + 1) (by omega), hB'.symm (S.restr l _), hB.symm c ((vCycle β S).pre l 0 b)]
      ring
  have r1 := C53_apply_is_the_V_cycle β hβ S hG hg s 0 b (fun _ _ => rfl) hb hs (fun _ => .inl rfl)
  have r2 := C53_apply_is_the_V_cycle β hβ S hG hg t 0 c (fun _ _ => rfl) hc ht (fun _ => .inl rfl)
  have e1 : x = Amg.mg (vCycle β S) S.coarsest 0 b := by
    rcases r1 with ⟨_, e, _⟩ | ⟨_, _, e, _⟩
    · rw [h1] at e; exact (Out.ok.inj e).1
    · rw [h1] at e; cases e
  have e2 : y = Amg.mg (vCycle β S) S.coarsest 0 c := by
    rcases r2 with ⟨_, e, _⟩ | ⟨_, _, e, _⟩
    · rw [h2] at e; exact (Out.ok.inj e).1
    · rw [h2] at e; cases e
  rw [e1, e2]
  exact key S.coarsest 0 (by omega) b c

/-! ### Counterexamples -/

/-- An unsymmetric matrix (stored pattern symmetric): what the pre-smoother reports as defect is not the defect. -/
def demoUnsym : SpMat ℚ :=
  { n := 2, m := 2, row := fun i => match i with | 0 => [(0, 1), (1, 1)] | 1 => [(0, 0), (1, 1)] | _ => [] }

theorem C53_unsymmetric_counterexample : ∃ x' d' : Nat → ℚ, presmooth numSolve demoUnsym (fun _ => 1) 0 0 = .ok (x', d') ∧
    d' 0 = 0 ∧ (1 : ℚ) - demoUnsym.apply numSolve.act x' 0 = -1 := by
  refine ⟨_, _, rfl, ?_, ?_⟩ <;> decide +kernel

/-- 2x2 blocks: identity, the shift `(x,y) ↦ (y,0)` and its transpose. -/
inductive Blk | one | up | lo

/-- The blocks as operators. -/
def blkSolve : BlockSolve Blk (ℚ × ℚ) (ℚ × ℚ) where
  act a := match a with
    | .one => AddMonoidHom.id _
    | .up => { toFun := fun p => (p.2, 0), map_zero' := rfl, map_add' := fun p q => by simp }
    | .lo => { toFun := fun p => (0, p.1), map_zero' := rfl, map_add' := fun p q => by simp }
  solve a y := match a with
    | .one => some y
    | _ => none
  solve_iff a y x := by
    cases a
    · simp only [Option.some.injEq]
      constructor
      · rintro rfl; exact ⟨Function.bijective_id, rfl⟩
      · rintro ⟨-, h⟩; exact h.symm
    · simp only [reduceCtorEq, false_iff]
      rintro ⟨⟨h, -⟩, -⟩
      have := @h (1, 0) (0, 0) rfl
      simp at this
    · simp only [reduceCtorEq, false_iff]
      rintro ⟨⟨h, -⟩, -⟩
      have := @h (0, 1) (0, 0) rfl
      simp at this

/-- The symmetric positive semidefinite matrix `[[1, up],[up^T, 1]]`. -/
def demoBlk : SpMat Blk :=
  { n := 2, m := 2, row := fun i => match i with | 0 => [(0, .one), (1, .up)] | 1 => [(0, .lo), (1, .one)] | _ => [] }

/-- A symmetric block matrix with an unsymmetric off-diagonal block: the pre-smoother still reports a wrong defect. -/
theorem C53_block_counterexample :
    SpMat.Symmetric (fun p q : ℚ × ℚ => p.1 * q.1 + p.2 * q.2) blkSolve.act demoBlk ∧
    ∃ x' d' : Nat → ℚ × ℚ, presmooth blkSolve demoBlk (fun _ => (1, 1)) 0 0 = .ok (x', d') ∧
    d' 0 = (0, -1) ∧ ((1, 1) : ℚ × ℚ) - demoBlk.apply blkSolve.act x' 0 = (0, 0) := by
  refine ⟨fun x y => ?_, _, _, rfl, ?_, ?_⟩
  · simp [blockDot, demoBlk, Finset.sum_range_succ, SpMat.apply, SpMat.partSum, blkSolve]
    ring
  all_goals decide +kernel

/-- A row without a diagonal entry: the column loop runs past the end of the row. -/
theorem C53_missing_diagonal_counterexample :
    presmooth numSolve { n := 2, m := 2, row := fun i => match i with | 0 => [(0, 1)] | 1 => [(0, 1)] | _ => [] } (fun _ => 1) 0 0 = .ub := rfl

/-! ### A two-level hierarchy: the Laplacian with one aggregate -/

/-- Two levels; `solve` is the coarse solver. -/
def demoFast (g : Nat) (solve : (Nat → ℚ) → (Nat → ℚ) → (Nat → ℚ) × (Nat → ℚ) × Bool) : Setup ℚ ℚ ℚ where
  coarsest := 1
  mat l := if l = 0 then demoLap else { n := 1, m := 1, row := fun _ => [(0, 2)] }
  restr _ x := fun i => if i = 0 then x 0 + x 1 + x 2 else 0
  prol _ x := fun i => if i < 3 then x 0 else 0
  solve := solve
  damp := 1
  gamma := g

/-- A direct coarse solver. -/
def demoDirect : (Nat → ℚ) → (Nat → ℚ) → (Nat → ℚ) × (Nat → ℚ) × Bool := fun _ b => ((fun i => b i / 2), b, true)
/-- An iterative coarse solver: adds the exact correction to `x` and leaves the defect in `b`. -/
def demoIter : (Nat → ℚ) → (Nat → ℚ) → (Nat → ℚ) × (Nat → ℚ) × Bool := fun x b =>
  (fun i => x i + (b i - 2 * x i) / 2, fun _ => 0, true)

/-- A state before the first call. -/
def demoFast0 : State ℚ := ⟨fineCursor, fun _ => 0, fun _ => 0, fun _ => 0, 0, 0, true⟩

theorem demoFast_good (g : Nat) (sv) : (demoFast g sv).Good numSolve := by
  have l0 : ∀ l, l < (demoFast g sv).coarsest → l = 0 := fun l hl => by
    have : l < 1 := hl
    omega
  refine ⟨?_, ?_, ?_, ?_, ?_, ?_, ?_⟩ <;> intro l hl <;> obtain rfl := l0 l hl
  · exact demoLap_ok.1
  · exact demoLap_ok.2.1
  · intro i hi e he
    have hi : i < 3 := hi
    change e.1 < 3
    interval_cases i <;> simp [demoFast, demoLap] at he <;> rcases he with h | h | h <;> subst_vars <;> simp
  · exact demoLap_ok.2.2.1
  · intro i j hi hj hne v
    have hi : i < 3 := hi
    have hj : j < 3 := hj
    interval_cases i <;> interval_cases j <;> first | (exact absurd rfl hne) | simp [SpMat.blockAct, SpMat.partSum, demoFast, demoLap]
  · intro x i hi
    change (if i = 0 then _ else (0 : ℚ)) = 0
    have : 1 ≤ i := hi
    rw [if_neg (by omega)]
  · intro x i hi
    change (if i < 3 then _ else (0 : ℚ)) = 0
    have : 3 ≤ i := hi
    rw [if_neg (by omega)]

/-- All hypotheses of `C53_apply_is_the_V_cycle` and `C53_symmetric` hold, for every `gamma ≥ 1`. -/
example (g : Nat) : (demoFast g demoDirect).Good numSolve ∧ (demoFast g demoDirect).Direct ∧ (demoFast g demoDirect).Converges ∧
    (∀ l, l < 1 → ((demoFast g demoDirect).mat l).Symmetric mulForm numSolve.act) ∧
    (∀ x y, blockDot mulForm 1 ((demoFast g demoDirect).restr 0 x) y = blockDot mulForm 3 x ((demoFast g demoDirect).prol 0 y)) ∧
    (∀ b c, blockDot mulForm 1 ((demoFast g demoDirect).solve 0 b).1 c = blockDot mulForm 1 b ((demoFast g demoDirect).solve 0 c).1) := by
  refine ⟨demoFast_good _ _, fun _ _ => rfl, fun _ _ => rfl, ?_, ?_, ?_⟩
  · intro l hl
    obtain rfl : l = 0 := by omega
    exact demoLap_ok.2.2.2.1
  · intro x y
    simp [blockDot, demoFast, mulForm, Finset.sum_range_succ]
    ring
  · intro b c
    simp [blockDot, demoFast, demoDirect, mulForm]
    ring

/-- The first three components of the result. -/
def three (r : Out (State ℚ) (Nat → ℚ)) : Option (ℚ × ℚ × ℚ) := match r with
  | .ok x _ => some (x 0, x 1, x 2)
  | _ => none

/-- `gamma = 1` and `gamma = 2` give the same with a direct coarse solver. -/
example : three (fastApply numSolve (demoFast 1 demoDirect) 0 (fun i => if i = 0 then 8 else 0) demoFast0) = some (93 / 16, 29 / 8, 7 / 4) ∧
    three (fastApply numSolve (demoFast 2 demoDirect) 0 (fun i => if i = 0 then 8 else 0) demoFast0) = some (93 / 16, 29 / 8, 7 / 4) := by
  decide +kernel

/-- `gamma = 2` and an iterative coarse solver (which leaves the defect in its right hand side): the second recursive call solves for the
right hand side zero, and the coarse correction is lost: the result is the one without any coarse correction. -/
theorem C53_w_cycle_counterexample :
    three (fastApply numSolve (demoFast 1 demoIter) 0 (fun i => if i = 0 then 8 else 0) demoFast0) = some (93 / 16, 29 / 8, 7 / 4) ∧
    three (fastApply numSolve (demoFast 2 demoIter) 0 (fun i => if i = 0 then 8 else 0) demoFast0) = some (21 / 4, 5 / 2, 1) ∧
    three (fastApply numSolve { demoFast 1 demoIter with prol := fun _ _ _ => 0 } 0 (fun i => if i = 0 then 8 else 0) demoFast0) = some (21 / 4, 5 / 2, 1) := by
  decide +kernel

end FastAmg
end Istl
