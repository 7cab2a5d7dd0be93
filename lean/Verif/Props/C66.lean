import Verif.Lemmas.Gpcg
import Verif.Spec.SolverDemo
import Mathlib.LinearAlgebra.FiniteDimensional.Lemmas
import Mathlib.Tactic.Linarith
import Mathlib.Data.Rat.Defs
import Mathlib.LinearAlgebra.Matrix.ToLin

/-!
# C66: GeneralizedPCGSolver for symmetric positive definite systems

The preconditioner may be anything: nonlinear, unsymmetric, another one in every call. Divisions are in a field, where `x/0 = 0`;
`C66_defined` says that none by zero happens before the defect has vanished, `C66_abort_counterexample` what the code does afterwards.
-/

namespace Istl
namespace Solver
variable {K Rl X : Type} [Field K] [LinearOrder K] [IsStrictOrderedRing K] [AddCommGroup X] [Module K X] [Zero Rl] [Mul Rl]
variable {B : X → X → K} {W : Submodule K X} {A : Module.End K X} {E : Env K Rl X}

/-- The preconditioner is positive: it does not turn away from the defect. -/
def PrecPositive (B : X → X → K) (W : Submodule K X) (E : Env K Rl X) : Prop := ∀ k, ∀ b ∈ W, b ≠ 0 → 0 < B (E.prec k b) b

theorem defect0_eq (H : SpdProblem B W A E) (x b : X) : defect0 E x b = (E.pre x b).2 - A (E.pre x b).1 := H.sub _ _

theorem run_defect (H : SpdProblem B W A E) (x b : X) (hb : defect0 E x b ∈ W) (d : Rl) (k : Nat) :
    (gpState E (E.pre x b).1 (defect0 E x b) d k).b = (E.pre x b).2 - A (gpState E (E.pre x b).1 (defect0 E x b) d k).x := by
  rw [(gpState_inv H (E.pre x b).1 (defect0 E x b) hb d k).defect, map_sub, defect0_eq H]
  abel

/-- In every run, with any number of restarts, the energy of the error does not grow: the functional `x^T A x - 2 b^T x` at the result
is at most that at the initial guess. -/
theorem C66_energy (H : SpdProblem B ⊤ A E) (red : Rl) (maxit restart fuel : Nat) (x b : X) (e : Exit X Rl)
    (he : gpApply E red maxit restart fuel x b = some e) (hx : e.exc = none) :
    ∃ y, e.x = E.post y ∧ quad B A (E.pre x b).2 y ≤ quad B A (E.pre x b).2 (E.pre x b).1 := by
  obtain ⟨_, _, ⟨y, h1, _, h2⟩, _⟩ := (gp_spec (E := E)
    (fun x' b' _ => b' = (E.pre x b).2 - A x' ∧ quad B A (E.pre x b).2 x' ≤ quad B A (E.pre x b).2 (E.pre x b).1)
    (fun s _ => s.b = (E.pre x b).2 - A s.x ∧ quad B A (E.pre x b).2 s.x ≤ quad B A (E.pre x b).2 (E.pre x b).1)
    ⟨defect0_eq H x b, le_refl _⟩
    (fun p pp => by
      obtain ⟨h1, _, h3⟩ := gpMinimise_quad H 0 ⟨(E.pre x b).1, defect0 E x b, p, pp, E.norm (defect0 E x b)⟩ (E.pre x b).2
        Submodule.mem_top (defect0_eq H x b)
      exact ⟨h3, h1⟩)
    (fun i ii st d hJ => by
      obtain ⟨h1, _, h3⟩ := gpMinimise_quad H ii (gpDirection E i ii st) (E.pre x b).2 Submodule.mem_top hJ.1
      exact ⟨h3, h1.trans hJ.2⟩)
    (fun _ _ _ _ hJ => hJ) (fun _ _ hJ => hJ) he).ok hx
  exact ⟨y, h1, h2⟩

/-- Without restart (`maxit ≤ restart`): the result after `k` iterations minimises the functional over the initial guess plus the span of
`k` pairwise conjugate directions, the first of which is the preconditioned initial defect; the returned defect is the defect of the
result and orthogonal to all directions. -/
theorem C66_optimal (H : SpdProblem B W A E) (red : Rl) (maxit restart fuel : Nat) (hm : maxit ≤ restart) (x b : X) (e : Exit X Rl)
    (hb : defect0 E x b ∈ W) (he : gpApply E red maxit restart fuel x b = some e) (hx : e.exc = none) :
    ∃ (y : X) (p : Nat → X), e.x = E.post y ∧ e.b = (E.pre x b).2 - A y ∧
      (0 < e.it.i → p 0 = E.prec 0 (defect0 E x b)) ∧ (∀ j < e.it.i, p j ∈ W) ∧
      (∀ i j, i < e.it.i → j < e.it.i → i ≠ j → B (A (p i)) (p j) = 0) ∧ (∀ j < e.it.i, B e.b (p j) = 0) ∧
      y - (E.pre x b).1 ∈ Submodule.span K (p '' {j | j < e.it.i}) ∧
      ∀ z, z - (E.pre x b).1 ∈ Submodule.span K (p '' {j | j < e.it.i}) →
        quad B A (E.pre x b).2 y ≤ quad B A (E.pre x b).2 z := by
  rcases gp_norestart hm he hx with ⟨h1, _, h3, h4⟩ | ⟨k, h1, h3, h4, _⟩
  · have hemp : ({j | j < e.it.i} : Set Nat) = ∅ := by ext j; simp [h1]
    refine ⟨(E.pre x b).1, fun _ => 0, h3, by rw [h4, defect0_eq H], fun h => absurd h (by omega), fun j hj => absurd hj (by omega),
      fun i j hi => absurd hi (by omega), fun j hj => absurd hj (by omega), by rw [sub_self]; exact Submodule.zero_mem _, fun z hz => ?_⟩
    rw [hemp, Set.image_empty, Submodule.span_empty, Submodule.mem_bot, sub_eq_zero] at hz
    rw [hz]
  · have I := gpState_inv H (E.pre x b).1 (defect0 E x b) hb (E.norm (defect0 E x b)) k
    have hd := run_defect H x b hb (E.norm (defect0 E x b)) k
    have hp0 : (gpState E (E.pre x b).1 (defect0 E x b) (E.norm (defect0 E x b)) k).p 0 = E.prec 0 (defect0 E x b) := by
      rw [gpState_p _ _ _ k 0 (by omega)]; rfl
    set st := gpState E (E.pre x b).1 (defect0 E x b) (E.norm (defect0 E x b)) k with hst
    have hset : ({j | j < e.it.i} : Set Nat) = {j | j ≤ k} := by ext j; simp [h1, Nat.lt_succ_iff]
    refine ⟨st.x, st.p, h3, by rw [h4, hd], fun _ => hp0, fun j hj => I.mem j (by omega), ?_, ?_, by rw [hset]; exact I.span, ?_⟩
    · intro i j hi hj hij
      rcases Nat.lt_or_gt_of_ne hij with h | h
      · exact I.conj i j h (by omega)
      · rw [H.symm, H.prod.symm]
        exact I.conj j i h (by omega)
    · intro j hj
      rw [h4]
      exact I.orth j (by omega)
    · intro z hz
      rw [hset] at hz
      have hzx : z - st.x ∈ Submodule.span K (st.p '' {j | j ≤ k}) := by
        have := Submodule.sub_mem _ hz I.span
        rwa [sub_sub_sub_cancel_right] at this
      have ho : B st.b (z - st.x) = 0 := orth_span H.prod (by rintro _ ⟨j, hj, rfl⟩; exact I.orth j hj) _ hzx
      have hq := quad_add H.prod H.symm (E.pre x b).2 st.x (z - st.x)
      rw [add_sub_cancel, ← hd, ho] at hq
      have hpos : 0 ≤ B (A (z - st.x)) (z - st.x) := by
        by_cases h0 : z - st.x = 0
        · rw [h0, map_zero, H.prod.zero]
        · exact (H.pos _ (span_le I.mem hzx) h0).le
      rw [hq]; linarith

/-- The direction following a non-zero defect. -/
theorem next_direction (H : SpdProblem B W A E) (hP : PrecPositive B W E) (x0 b0 : X) (hb : b0 ∈ W) (d : Rl) (k : Nat)
    (hne : (gpState E x0 b0 d k).b ≠ 0) :
    0 < B ((gpState E x0 b0 d (k + 1)).p (k + 1)) (gpState E x0 b0 d k).b := by
  have I := gpState_inv H x0 b0 hb d k
  have hbk := I.bmem H hb
  set st := gpState E x0 b0 d k with hst
  have hlt : ∀ j, j < k + 1 → j ≤ k := fun j h => by omega
  obtain ⟨q, hq, e, _, _⟩ := gpDirection_p H (k + 1) (k + 1) st (fun j hj => I.mem j (hlt j hj)) hbk
    (fun j hj => I.pp j (hlt j hj)) (fun i j h1 h2 => I.conj i j h1 (hlt j h2))
  have e' : (gpState E x0 b0 d (k + 1)).p (k + 1) = E.prec (k + 1) st.b + q := e
  have hset : ({j | j < k + 1} : Set Nat) = {j | j ≤ k} := by ext j; simp [Nat.lt_succ_iff]
  rw [hset] at hq
  have ho : B st.b q = 0 := orth_span H.prod (by rintro _ ⟨j, hj, rfl⟩; exact I.orth j hj) _ hq
  rw [e', H.prod.add, H.prod.symm q, ho, add_zero]
  exact hP _ _ hbk hne

/-- With a positive preconditioner every number divided by is positive as long as the defect has not vanished, and every such step lowers the
functional. -/
theorem C66_defined (H : SpdProblem B W A E) (hP : PrecPositive B W E) (x0 b0 : X) (hb : b0 ∈ W) (d : Rl) :
    (b0 ≠ 0 → 0 < (gpState E x0 b0 d 0).pp 0) ∧
    ∀ k, (gpState E x0 b0 d k).b ≠ 0 → 0 < (gpState E x0 b0 d (k + 1)).pp (k + 1) ∧
      ∀ c, b0 = c - A x0 → quad B A c (gpState E x0 b0 d (k + 1)).x < quad B A c (gpState E x0 b0 d k).x := by
  refine ⟨fun hne => ?_, fun k hne => ?_⟩
  · have I := gpState_inv H x0 b0 hb d 0
    rw [I.pp 0 (le_refl _)]
    apply H.pos _ (I.mem 0 (le_refl _))
    intro h0
    have := hP 0 b0 hb hne
    have e : (gpState E x0 b0 d 0).p 0 = E.prec 0 b0 := rfl
    rw [← e, h0, H.prod.zero] at this
    exact lt_irrefl _ this
  · have I := gpState_inv H x0 b0 hb d (k + 1)
    have hdir := next_direction H hP x0 b0 hb d k hne
    refine ⟨?_, fun c hc => ?_⟩
    · rw [I.pp (k + 1) (le_refl _)]
      apply H.pos _ (I.mem (k + 1) (le_refl _))
      intro h0
      rw [h0, H.prod.zero] at hdir
      exact lt_irrefl _ hdir
    · have hd : (gpState E x0 b0 d k).b = c - A (gpState E x0 b0 d k).x := by
        rw [(gpState_inv H x0 b0 hb d k).defect, hc, map_sub]; abel
      exact (gpMinimise_quad H (k + 1) (gpDirection E (k + 1) (k + 1) (gpState E x0 b0 d k)) c (I.mem (k + 1) (le_refl _)) hd).2.1 hdir.ne'

/-- A vanished defect stays zero (in a field). -/
theorem zero_stays (H : SpdProblem B W A E) (x0 b0 : X) (d : Rl) (k : Nat) (h0 : (gpState E x0 b0 d k).b = 0) :
    (gpState E x0 b0 d (k + 1)).b = 0 := by
  show (gpDirection E (k + 1) (k + 1) (gpState E x0 b0 d k)).b + _ • _ = 0
  have : (gpDirection E (k + 1) (k + 1) (gpState E x0 b0 d k)).b = 0 := h0
  rw [this, H.dot, H.prod.symm, H.prod.zero]
  simp

/-- The defect vanishes after as many steps as the space has dimensions. -/
theorem defect_vanishes [FiniteDimensional K W] (H : SpdProblem B W A E) (hP : PrecPositive B W E) (x0 b0 : X) (hb : b0 ∈ W) (d : Rl)
    (k : Nat) (hk : Module.finrank K W ≤ k + 1) : (gpState E x0 b0 d k).b = 0 := by
  by_contra hne
  have hall : ∀ j ≤ k, (gpState E x0 b0 d j).b ≠ 0 := by
    intro j hj h0
    apply hne
    obtain ⟨i, rfl⟩ := Nat.exists_eq_add_of_le hj
    clear hj hk hne
    induction i with
    | zero => exact h0
    | succ i ih => exact zero_stays H x0 b0 d (j + i) ih
  have hb0 : b0 ≠ 0 := by
    intro h
    apply hall 0 (by omega)
    show b0 + _ • _ = 0
    rw [h, H.dot, H.prod.symm, H.prod.zero]
    simp
  have I := gpState_inv H x0 b0 hb d k
  have hbk := I.bmem H hb
  set st := gpState E x0 b0 d k with hst
  have hpp : ∀ j ≤ k, 0 < B (A (st.p j)) (st.p j) := by
    intro j hj
    rw [hst, gpState_p x0 b0 d k j hj]
    have hm := (gpState_inv H x0 b0 hb d j).pp j (le_refl _)
    rw [← hm]
    cases j with
    | zero => exact (C66_defined H hP x0 b0 hb d).1 hb0
    | succ j => exact ((C66_defined H hP x0 b0 hb d).2 j (hall j (by omega))).1
  let v : Fin (k + 1) → W := fun j => ⟨st.p j, I.mem j (by omega)⟩
  have hv : LinearIndependent K v := by
    rw [Fintype.linearIndependent_iff]
    intro g hg i
    have hg' : ∑ j, g j • st.p j = 0 := by
      have := congrArg (fun w : W => (w : X)) hg
      simpa [v, Submodule.coe_sum] using this
    have hsum : B (A (st.p i)) (∑ j, g j • st.p j) = ∑ j, g j * B (A (st.p i)) (st.p j) := by
      have : ∀ s : Finset (Fin (k + 1)), B (A (st.p i)) (∑ j ∈ s, g j • st.p j) = ∑ j ∈ s, g j * B (A (st.p i)) (st.p j) := by
        intro s
        induction s using Finset.induction_on with
        | empty => rw [Finset.sum_empty, Finset.sum_empty, H.prod.symm, H.prod.zero]
        | insert a s ha ih => rw [Finset.sum_insert ha, Finset.sum_insert ha, H.prod.add', H.prod.smul', ih]
      exact this _
    rw [hg', H.prod.symm, H.prod.zero, Finset.sum_eq_single i] at hsum
    · rcases mul_eq_zero.mp hsum.symm with h | h
      · exact h
      · exact absurd h (hpp i (by omega)).ne'
    · intro j _ hji
      rcases Nat.lt_or_gt_of_ne (fun h => hji (Fin.ext h) : (j : Nat) ≠ i) with h | h
      · have : B (A (st.p i)) (st.p j) = 0 := by rw [H.symm, H.prod.symm]; exact I.conj j i h (by omega)
        rw [this, mul_zero]
      · rw [I.conj i j h (by omega), mul_zero]
    · simp
  have hcard := hv.fintype_card_le_finrank
  rw [Fintype.card_fin] at hcard
  have htop := hv.span_eq_top_of_card_eq_finrank' (by rw [Fintype.card_fin]; omega)
  have hz : E.prec (k + 1) st.b ∈ W := H.prec _ _ hbk
  have hmem : (⟨E.prec (k + 1) st.b, hz⟩ : W) ∈ Submodule.span K (Set.range v) := by rw [htop]; trivial
  have hspan : E.prec (k + 1) st.b ∈ Submodule.span K (st.p '' {j | j ≤ k}) := by
    have := Submodule.mem_map_of_mem (f := W.subtype) hmem
    rw [Submodule.map_span] at this
    refine Submodule.span_mono ?_ this
    rintro _ ⟨_, ⟨j, rfl⟩, rfl⟩
    exact ⟨j, Nat.lt_succ_iff.mp j.2, rfl⟩
  have ho : B st.b (E.prec (k + 1) st.b) = 0 := orth_span H.prod (by rintro _ ⟨j, hj, rfl⟩; exact I.orth j hj) _ hspan
  have := hP (k + 1) st.b hbk hne
  rw [H.prod.symm, ho] at this
  exact lt_irrefl _ this

/-- With a positive preconditioner, `maxit ≤ restart` and at least as many iterations allowed as the space has dimensions, every run that does
not throw reports convergence. -/
theorem C66_terminates [FiniteDimensional K W] (H : SpdProblem B W A E) (hP : PrecPositive B W E) (red : Rl) (maxit restart fuel : Nat)
    (hm : maxit ≤ restart) (hn : Module.finrank K W ≤ maxit) (h0 : E.lt (E.norm 0) E.tiny = true) (x b : X) (e : Exit X Rl)
    (hb : defect0 E x b ∈ W) (he : gpApply E red maxit restart fuel x b = some e) (hx : e.exc = none) : e.it.converged = true := by
  by_contra hc
  have hc : e.it.converged = false := by simpa using hc
  rcases gp_norestart hm he hx with ⟨_, h2, _⟩ | ⟨k, h1, _, h4, h5, _⟩
  · rw [h2] at hc; cases hc
  · have hk := h5 hc
    have hz := defect_vanishes H hP (E.pre x b).1 (defect0 E x b) hb (E.norm (defect0 E x b)) k (by omega)
    obtain ⟨g, _, ⟨y, _, hcur⟩, _⟩ := (Solver.gp_run he).ok hx
    rw [h4, hz] at hcur
    rw [g.conv, hcur] at hc
    simp [small, h0] at hc

/-! ### The inner loop goes on after convergence -/

/-- The diagonal matrix with entries `1, 1, 4`, arithmetic with NaN. -/
def diag114 : Env Fl Fl (Fl × Fl × Fl) where
  pre x b := (x, b)
  post x := x
  subOp x b := (b.1 - x.1, b.2.1 - x.2.1, b.2.2 - .num 4 * x.2.2)
  op x := (x.1, x.2.1, .num 4 * x.2.2)
  prec _ b := b
  dot x y := x.1 * y.1 + x.2.1 * y.2.1 + x.2.2 * y.2.2
  norm x := nanEnv.norm x.1 + nanEnv.norm x.2.1 + nanEnv.norm x.2.2
  lt := nanEnv.lt
  finite := nanEnv.finite
  isZero := nanEnv.isZero
  abs := nanEnv.abs
  ofReal := nanEnv.ofReal
  sqrt := nanEnv.sqrt
  conj := nanEnv.conj
  rsqrt := nanEnv.rsqrt
  tiny := nanEnv.tiny
  eps := nanEnv.eps
  rotEps := nanEnv.rotEps

/-- The outcome of a run: iterations registered, last defect norm, converged, exception. -/
def gpOutcome (maxit : Nat) : Option (Nat × Fl × Bool × Option Exc) :=
  (gpApply diag114 (.num (1 / 10 ^ 8)) maxit 10 maxit (.num 0, .num 0, .num 0) (.num 1, .num 1, .num 1)).map fun e =>
    (e.it.i, e.it.cur, e.it.converged, e.exc)

/-- For the matrix `diag(1,1,4)`, right hand side `(1,1,1)` and the identity as preconditioner every number occurring is a dyadic fraction.
Two iterations solve the system exactly. If more are allowed, the inner loop does not stop: the third one computes `0/0`, and the
solver throws instead of returning the solution. -/
theorem C66_abort_counterexample :
    gpOutcome 2 = some (2, .num 0, true, none) ∧ gpOutcome 3 = some (2, .num 0, true, some .solverAbort) ∧
    gpOutcome 100 = some (2, .num 0, true, some .solverAbort) := by
  refine ⟨by decide +kernel, by decide +kernel, by decide +kernel⟩

/-! ### A problem meeting the hypotheses: the same matrix over the rationals -/

/-- `diag(1,1,4)` over the rationals, with a preconditioner that alternates between two matrices. -/
def ratDiag : Env ℚ ℚ (ℚ × ℚ × ℚ) where
  pre x b := (x, b)
  post x := x
  subOp x b := (b.1 - x.1, b.2.1 - x.2.1, b.2.2 - 4 * x.2.2)
  op x := (x.1, x.2.1, 4 * x.2.2)
  prec k b := if k % 2 = 0 then b else (2 * b.1, b.2.1, b.2.2)
  dot x y := x.1 * y.1 + x.2.1 * y.2.1 + x.2.2 * y.2.2
  norm x := |x.1| + |x.2.1| + |x.2.2|
  lt a b := decide (a < b)
  finite _ := true
  isZero d := decide (d = 0)
  abs x := |x|
  ofReal x := x
  sqrt x := x
  conj x := x
  rsqrt x := x
  tiny := 1 / 10 ^ 30
  eps := 1 / 10 ^ 80
  rotEps := 1 / 10 ^ 15

def ratDiagLin : Module.End ℚ (ℚ × ℚ × ℚ) where
  toFun x := (x.1, x.2.1, 4 * x.2.2)
  map_add' x y := by simp [mul_add]
  map_smul' c x := by simp [mul_left_comm]

theorem ratDiag_spd : SpdProblem (fun x y : ℚ × ℚ × ℚ => x.1 * y.1 + x.2.1 * y.2.1 + x.2.2 * y.2.2) ⊤ ratDiagLin ratDiag where
  prod := ⟨fun x y => by ring, fun x y z => by simp; ring, fun c x z => by simp; ring⟩
  dot _ _ := rfl
  op _ := rfl
  sub x b := rfl
  symm := fun x y => by simp [ratDiagLin]; ring
  mem _ _ := trivial
  pos := by
    rintro ⟨a, b, c⟩ _ hne
    simp only [ratDiagLin, LinearMap.coe_mk, AddHom.coe_mk]
    by_contra h
    have h1 : a = 0 := by nlinarith [mul_self_nonneg a, mul_self_nonneg b, mul_self_nonneg c]
    have h2 : b = 0 := by nlinarith [mul_self_nonneg a, mul_self_nonneg b, mul_self_nonneg c]
    have h3 : c = 0 := by nlinarith [mul_self_nonneg a, mul_self_nonneg b, mul_self_nonneg c]
    exact hne (by rw [h1, h2, h3]; rfl)
  prec _ _ _ := trivial

example : PrecPositive (fun x y : ℚ × ℚ × ℚ => x.1 * y.1 + x.2.1 * y.2.1 + x.2.2 * y.2.2) ⊤ ratDiag := by
  rintro k ⟨a, b, c⟩ _ hne
  by_contra h
  have h' : a * a + b * b + c * c ≤ 0 ∨ 2 * a * a + b * b + c * c ≤ 0 := by
    simp only [ratDiag] at h
    split at h
    · exact .inl (not_lt.mp h)
    · exact .inr (not_lt.mp h)
  have ha := mul_self_nonneg a
  have hb := mul_self_nonneg b
  have hc := mul_self_nonneg c
  have h1 : a * a = 0 := by rcases h' with h' | h' <;> nlinarith
  have h2 : b * b = 0 := by rcases h' with h' | h' <;> nlinarith
  have h3 : c * c = 0 := by rcases h' with h' | h' <;> nlinarith
  rw [mul_self_eq_zero] at h1 h2 h3
  exact hne (by rw [h1, h2, h3]; rfl)

example : (gpApply ratDiag (1 / 10 ^ 8) 3 10 3 (0, 0, 0) (1, 2, 3)).map (fun e => (e.it.i, e.it.converged, e.exc)) =
    some (3, true, none) := by
  decide +kernel

end Solver
end Istl
