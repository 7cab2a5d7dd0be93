import Verif.Lemmas.Minres3
import Verif.Lemmas.FrameFull

/-!
# C74: MINRES minimises the preconditioned residual norm, and is exact in `dim` steps

Exact real arithmetic. `g` is the scalar product of the solver, `A` the operator: regular, self-adjoint, possibly indefinite. `B` is the
preconditioner: self-adjoint and positive definite. The norm MINRES minimises is `sqrt (g r (B r))`.
-/

namespace Istl
namespace Solver

variable {X : Type} [AddCommGroup X] [Module ℝ X]

/-- The states of the loop of a run. -/
noncomputable def minSeq (E : Env ℝ ℝ X) (x b : X) : Nat → MinSt ℝ X ℝ :=
  minState E (E.pre x b).1 (defect0 E x b) (E.norm (E.prec 0 (defect0 E x b)))

/-- **A run follows the sequence of loop states** up to the first defect that passes the test, or up to `maxit`, and reports their defects. -/
theorem C74_run (E : Env ℝ ℝ X) (red : ℝ) (maxit : Nat) (x b : X) (hfin : ∀ a, E.finite a = true) :
    let e := minApply E red maxit x b
    e.exc = none ∧ e.it.i ≤ maxit ∧ e.x = E.post (minSeq E x b e.it.i).x ∧
      e.it.trace = record (fun j => (minSeq E x b j).d) e.it.i ∧ e.it.converged = small E red (minSeq E x b 0).d (minSeq E x b e.it.i).d ∧
      (∀ j, j < e.it.i → small E red (minSeq E x b 0).d (minSeq E x b j).d = false) ∧ (e.it.converged = false → e.it.i = maxit) := by
  obtain ⟨a1, a2, -, -, a5, a6, -, a8, a9, a10⟩ := frame_full E red maxit (fun b => E.norm (E.prec 0 b)) (minAdvance E) (fun s => s.d)
    (fun _ s => s) (minInit E) (fun s => s.x) (fun s => s.b) x b (minSeq E x b) rfl rfl rfl rfl (fun _ => rfl)
    (fun _ _ => ⟨rfl, rfl⟩) (fun _ _ => rfl) (fun _ => hfin _)
  exact ⟨a1, a2, a6, a5, a8, a9, a10⟩

theorem min_not_small {E : Env ℝ ℝ X} {red a c : ℝ} (hs : ExactScalars E) (ht : 0 < E.tiny) (h : small E red a c = false) : c ≠ 0 := by
  rintro rfl
  have : E.lt 0 E.tiny = true := (hs.lt _ _).2 ht
  rw [small, this, Bool.or_true] at h
  cases h

/-- **Minimal residual.** For every step `j ≥ 1` of a run whose rotations are not the inexact ones for arguments below `1e-15`: the defect
recorded for step `j` is the norm of the true residual of the iterate `x_j`; `x_j` lies in `x_0 + span {c, BA c, ..., (BA)^(j-1) c}` with
the preconditioned initial defect `c = B (b - A x_0)`; and no vector of that affine space has a smaller residual norm. -/
theorem C74_minimal (E : Env ℝ ℝ X) (g : LinearMap.BilinForm ℝ X) (A B : X →ₗ[ℝ] X) (h : MinExact E g A B)
    (hfin : ∀ a, E.finite a = true) (htiny : 0 < E.tiny) (hn : E.norm 0 = 0) (red : ℝ) (maxit : Nat) (x b : X)
    (hr : ∀ j, j < (minApply E red maxit x b).it.i → RotOk E (j + 1) (minSeq E x b j))
    (j : Nat) (hj0 : 0 < j) (hj : j ≤ (minApply E red maxit x b).it.i) :
    let x0 := (E.pre x b).1
    let b0 := (E.pre x b).2
    let res := fun y => Real.sqrt (g (b0 - A y) (B (b0 - A y)))
    let K := krylovSpace (B ∘ₗ A) (B (b0 - A x0)) j
    (minSeq E x b j).d = res (minSeq E x b j).x ∧ (minSeq E x b j).x - x0 ∈ K ∧
    ∀ y, y - x0 ∈ K → (minSeq E x b j).d ≤ res y := by
  intro x0 b0 res K
  obtain ⟨-, -, -, -, -, hsm, -⟩ := C74_run E red maxit x b hfin
  have hd : ∀ i, i < j → (minSeq E x b i).d ≠ 0 := fun i hi => min_not_small h.scalars htiny (hsm i (by omega))
  have hd0 : E.norm (E.prec 0 (defect0 E x b)) ≠ 0 := hd 0 hj0
  have hb : defect0 E x b ≠ 0 := by
    intro hz
    rw [hz, h.prec, map_zero] at hd0
    exact hd0 hn
  have hdef : defect0 E x b = b0 - A x0 := h.sub _ _
  obtain ⟨m1, m2, m3⟩ := m_main h b0 hdef hb hd0 j hd (fun i hi => hr i (by omega))
  have e1 : (minSeq E x b j).d = res (minSeq E x b j).x := by
    obtain ⟨i, rfl⟩ : ∃ i, j = i + 1 := ⟨j - 1, by omega⟩
    change _ = Real.sqrt (g (b0 - A (minState E _ _ _ (i + 1)).x) (B (b0 - A (minState E _ _ _ (i + 1)).x)))
    rw [m1, Real.sqrt_sq_eq_abs]
    exact md_succ h i
  have hK : krylovSpace (B ∘ₗ A) (B (defect0 E x b)) j = K := by rw [hdef]
  rw [hK] at m2 m3
  refine ⟨e1, m2, fun y hy => ?_⟩
  rw [e1]
  apply Real.sqrt_le_sqrt
  have hv : y - (minSeq E x b j).x ∈ K := by
    have := Submodule.sub_mem _ hy m2
    rwa [sub_sub_sub_cancel_right] at this
  have ho : g (b0 - A (minSeq E x b j).x) (B (A (y - (minSeq E x b j).x))) = 0 := m3 _ hv
  have hy2 : b0 - A y = (b0 - A (minSeq E x b j).x) - A (y - (minSeq E x b j).x) := by rw [map_sub]; abel
  rw [hy2]
  generalize b0 - A (minSeq E x b j).x = r at *
  generalize A (y - (minSeq E x b j).x) = w at *
  have ho2 : g w (B r) = 0 := by rw [h.comm, h.adjB]; exact ho
  simp only [map_sub, LinearMap.sub_apply, ho, ho2]
  linarith [h.nonneg w]

/-- The recorded defects decrease. -/
theorem C74_monotone (E : Env ℝ ℝ X) (g : LinearMap.BilinForm ℝ X) (A B : X →ₗ[ℝ] X) (h : MinExact E g A B)
    (hfin : ∀ a, E.finite a = true) (htiny : 0 < E.tiny) (hn : E.norm 0 = 0) (red : ℝ) (maxit : Nat) (x b : X)
    (hr : ∀ j, j < (minApply E red maxit x b).it.i → RotOk E (j + 1) (minSeq E x b j))
    (i j : Nat) (hi : 0 < i) (hij : i ≤ j) (hj : j ≤ (minApply E red maxit x b).it.i) : (minSeq E x b j).d ≤ (minSeq E x b i).d := by
  obtain ⟨e1, m1, -⟩ := C74_minimal E g A B h hfin htiny hn red maxit x b hr i hi (by omega)
  obtain ⟨-, -, l⟩ := C74_minimal E g A B h hfin htiny hn red maxit x b hr j (by omega) hj
  rw [e1]
  refine l _ (Submodule.span_mono ?_ m1)
  rintro y ⟨a, ha, rfl⟩
  exact ⟨a, by omega, rfl⟩

/-- **Exactness**: on a space of dimension `n` and with `maxit ≥ n`, the solver returns normally, converged, after at most `n` iterations. -/
theorem C74_exact [Module.Finite ℝ X] (E : Env ℝ ℝ X) (g : LinearMap.BilinForm ℝ X) (A B : X →ₗ[ℝ] X) (h : MinExact E g A B)
    (hfin : ∀ a, E.finite a = true) (htiny : 0 < E.tiny) (hn : E.norm 0 = 0) (red : ℝ) (maxit : Nat) (x b : X)
    (hm : Module.finrank ℝ X ≤ maxit) (hr : ∀ j, j < (minApply E red maxit x b).it.i → RotOk E (j + 1) (minSeq E x b j)) :
    (minApply E red maxit x b).exc = none ∧ (minApply E red maxit x b).it.converged = true ∧
    (minApply E red maxit x b).it.i ≤ Module.finrank ℝ X := by
  obtain ⟨hx, -, -, -, hc, hsm, hmax⟩ := C74_run E red maxit x b hfin
  have z : ∀ a : ℝ, small E red a 0 = true := fun a => by
    have : E.lt 0 E.tiny = true := (h.scalars.lt _ _).2 htiny
    rw [small, this, Bool.or_true]
  by_cases hd0 : E.norm (E.prec 0 (defect0 E x b)) = 0
  · have hi : (minApply E red maxit x b).it.i = 0 := by
      by_contra hne
      have := min_not_small h.scalars htiny (hsm 0 (by omega))
      exact this hd0
    refine ⟨hx, ?_, by omega⟩
    rw [hc, hi]
    have hs0 : (minSeq E x b 0).d = 0 := hd0
    rw [hs0]; exact z 0
  · have hb : defect0 E x b ≠ 0 := by
      intro hz
      rw [hz, h.prec, map_zero] at hd0
      exact hd0 hn
    have hle : (minApply E red maxit x b).it.i ≤ Module.finrank ℝ X := by
      by_contra hgt
      obtain ⟨k, hk, hk0⟩ := m_finite (x := (E.pre x b).1) h hb hd0 (fun j hj _ => hr j (by omega))
      exact min_not_small h.scalars htiny (hsm k (by omega)) hk0
    refine ⟨hx, ?_, hle⟩
    cases hcv : (minApply E red maxit x b).it.converged with
    | true => rfl
    | false =>
      exfalso
      have hi := hmax hcv
      obtain ⟨k, hk, hk0⟩ := m_finite (x := (E.pre x b).1) h hb hd0 (fun j hj _ => hr j (by omega))
      rcases Nat.lt_or_ge k (minApply E red maxit x b).it.i with hlt | hge
      · exact min_not_small h.scalars htiny (hsm k hlt) hk0
      · rw [hcv, show (minApply E red maxit x b).it.i = k by omega] at hc
        have hs0 : (minSeq E x b k).d = 0 := hk0
        rw [hs0, z] at hc
        cases hc

/-! ## Example: an indefinite system and a scaled preconditioner -/

/-- The plane with the operator `(a,b) ↦ (b,a)` and the preconditioner `4`. -/
noncomputable def mnEnv : Env ℝ ℝ (ℝ × ℝ) where
  pre x b := (x, b)
  post x := x
  subOp x b := b - (x.2, x.1)
  op x := (x.2, x.1)
  prec _ b := (4 : ℝ) • b
  dot x y := x.1 * y.1 + x.2 * y.2
  norm x := Real.sqrt (x.1 * x.1 + x.2 * x.2)
  lt a b := @decide (a < b) (Classical.propDecidable _)
  finite _ := true
  isZero d := @decide (d = 0) (Classical.propDecidable _)
  abs x := ‖x‖
  ofReal x := x
  sqrt x := Real.sqrt x
  conj x := x
  rsqrt x := Real.sqrt x
  tiny := 1 / 10 ^ 30
  eps := 1 / 10 ^ 80
  rotEps := 1 / 10 ^ 15

/-- Its scalar product. -/
noncomputable def mnForm : LinearMap.BilinForm ℝ (ℝ × ℝ) :=
  LinearMap.mk₂ ℝ (fun x y => x.1 * y.1 + x.2 * y.2) (by intros; simp; ring) (by intros; simp; ring) (by intros; simp; ring)
    (by intros; simp; ring)

/-- Its operator. -/
noncomputable def mnOp : ℝ × ℝ →ₗ[ℝ] ℝ × ℝ where
  toFun x := (x.2, x.1)
  map_add' _ _ := rfl
  map_smul' _ _ := rfl

theorem mn_exact : MinExact mnEnv mnForm mnOp ((4 : ℝ) • LinearMap.id) where
  dot _ _ := rfl
  comm x y := by simp [mnForm]; ring
  op _ := rfl
  sub _ _ := rfl
  prec _ _ := rfl
  adjA x y := by simp [mnForm, mnOp]; ring
  adjB x y := by simp [mnForm]
  scalars := { abs := fun _ => rfl, ofReal := fun _ => rfl, conj := fun _ => rfl, rsqrt := fun _ => rfl,
               lt := fun _ _ => by simp [mnEnv], rotEps := by simp [mnEnv] }
  sqrt _ := rfl
  isZero d := by simp [mnEnv]
  posB := by
    rintro ⟨a, c⟩ hx
    have e : mnForm (((4 : ℝ) • LinearMap.id : ℝ × ℝ →ₗ[ℝ] ℝ × ℝ) (a, c)) (a, c) = 4 * (a ^ 2 + c ^ 2) := by simp [mnForm]; ring
    rw [e]
    by_contra hle
    have ha : a ^ 2 = 0 := by nlinarith [sq_nonneg a, sq_nonneg c]
    have hc : c ^ 2 = 0 := by nlinarith [sq_nonneg a, sq_nonneg c]
    exact hx (Prod.ext (pow_eq_zero_iff (two_ne_zero) |>.1 ha) (pow_eq_zero_iff (two_ne_zero) |>.1 hc))
  regular := by
    rintro ⟨a, c⟩ hx
    have := Prod.mk.inj (hx : ((c, a) : ℝ × ℝ) = (0, 0))
    exact Prod.ext this.2 this.1

theorem sqrt_of_sq {a c : ℝ} (h : c = a ^ 2) (ha : 0 ≤ a) : Real.sqrt c = a := by rw [h]; exact Real.sqrt_sq ha

/-- The state of the example before the loop. -/
theorem mn_state0 : minSeq mnEnv (0, 0) (1, 0) 0 =
    { x := (0, 0), b := (1, 0), z := (2, 0), q := fun k => if k = 1 then (1 / 2, 0) else 0, p := fun _ => 0, beta := 2, beta0 := 2,
      c := fun _ => 0, s := fun _ => 0, T2 := 0, xi := fun k => if k = 0 then 1 else 0, d := 4 } := by
  have s1 : Real.sqrt (1 * 4) = 2 := sqrt_of_sq (by norm_num) (by norm_num)
  have s2 : Real.sqrt (4 * 4) = 4 := sqrt_of_sq (by norm_num) (by norm_num)
  unfold minSeq minState minInit
  simp only [mnEnv, defect0, Prod.mk_sub_mk, sub_zero, Prod.smul_mk, smul_eq_mul, mul_zero, add_zero, mul_one, one_mul, MinSt.mk.injEq,
    true_and, and_true]
  rw [show Real.sqrt 4 = 2 from sqrt_of_sq (by norm_num) (by norm_num), s2]
  simp
  norm_num

/-- After one pass: no progress at all, since the Krylov direction is orthogonal. -/
theorem mn_state1 : minSeq mnEnv (0, 0) (1, 0) 1 =
    { x := (0, 0), b := (1, 0), z := (0, 2), q := upd (fun k => if k = 1 then ((1 / 2, 0) : ℝ × ℝ) else 0) 2 (0, 1 / 2),
      p := upd (fun _ => (0 : ℝ × ℝ)) 2 (1 / 2, 0), beta := 4, beta0 := 2,
      c := upd (fun _ => (0 : ℝ)) 1 0, s := upd (fun _ => (0 : ℝ)) 1 1, T2 := 4,
      xi := upd (upd (fun k => if k = 0 then (1 : ℝ) else 0) 1 (-1)) 0 0, d := 2 } := by
  have l : minLanczos mnEnv 1 (minSeq mnEnv (0, 0) (1, 0) 0) = (0, (0, 2), (0, 8), 4) := by
    rw [mn_state0]
    have s1 : Real.sqrt 2 * Real.sqrt 2 = 2 := Real.mul_self_sqrt (by norm_num)
    simp [minLanczos, mnEnv]
    norm_num
    linarith
  have r : planeRotation mnEnv id 0 4 = (0, 1) := by
    simp [planeRotation, mnEnv]
    norm_num
  change minAdvance mnEnv 1 (minSeq mnEnv (0, 0) (1, 0) 0) = _
  unfold minAdvance
  rw [l]
  have c : minColumn mnEnv 1 (minSeq mnEnv (0, 0) (1, 0) 0) 0 = (0, 0, 0) := by
    rw [mn_state0]; simp [minColumn]
  dsimp only
  rw [c]
  dsimp only
  rw [r, mn_state0]
  simp [mnEnv, upd]
  norm_num

/-- The second pass of the example uses exact rotations. -/
theorem mn_rot : RotOk mnEnv 1 (minSeq mnEnv (0, 0) (1, 0) 0) ∧ RotOk mnEnv 2 (minSeq mnEnv (0, 0) (1, 0) 1) := by
  constructor
  · rw [mn_state0]
    have s1 : Real.sqrt 2 * (2 * Real.sqrt 2) = 4 := by have : Real.sqrt 2 * Real.sqrt 2 = 2 := Real.mul_self_sqrt (by norm_num); linarith
    refine ⟨Or.inl ?_, Or.inr ?_⟩
    · simp [minLanczos, minColumn, mnEnv]
    · simp [minLanczos, mnEnv]
      norm_num
      rw [abs_of_nonneg (Real.sqrt_nonneg 2), s1]; norm_num
  · rw [mn_state1]
    refine ⟨Or.inr ?_, Or.inl ?_⟩
    · simp [minLanczos, minColumn, mnEnv, upd]
      norm_num
    · simp [minLanczos, mnEnv, upd]
      norm_num

/-- For the example the theorems apply: MINRES solves the indefinite system in two steps. -/
example : (minApply mnEnv (1 / 100) 2 (0, 0) (1, 0)).exc = none ∧ (minApply mnEnv (1 / 100) 2 (0, 0) (1, 0)).it.converged = true := by
  have h2 : Module.finrank ℝ (ℝ × ℝ) = 2 := by simp
  have hi := (C74_run mnEnv (1 / 100) 2 (0, 0) (1, 0) (fun _ => rfl)).2.1
  have := C74_exact mnEnv mnForm mnOp _ mn_exact (fun _ => rfl) (by simp [mnEnv]) (by simp [mnEnv]) (1 / 100) 2 (0, 0) (1, 0) (by omega)
    (fun j hj => by
      have : j = 0 ∨ j = 1 := by omega
      rcases this with rfl | rfl
      · exact mn_rot.1
      · exact mn_rot.2)
  exact ⟨this.1, this.2.1⟩

/-- **Two different norms are compared.** The first defect is `‖B r‖`, all later ones are `sqrt (r, B r)`. With the preconditioner `4` the
example run with reduction `0.6` reports convergence with reduction `1/2` after one iteration, although the iterate did not change. -/
theorem C74_norm_counterexample : ∃ (E : Env ℝ ℝ (ℝ × ℝ)) (g : LinearMap.BilinForm ℝ (ℝ × ℝ)) (A B : ℝ × ℝ →ₗ[ℝ] ℝ × ℝ) (b : ℝ × ℝ),
    MinExact E g A B ∧ b ≠ 0 ∧ (minApply E (3 / 5) 10 0 b).exc = none ∧ (minApply E (3 / 5) 10 0 b).x = 0 ∧
    ((minApply E (3 / 5) 10 0 b).it.finalize E (3 / 5)).converged = true ∧
    ((minApply E (3 / 5) 10 0 b).it.finalize E (3 / 5)).reduction = 1 / 2 := by
  refine ⟨mnEnv, mnForm, mnOp, _, (1, 0), mn_exact, fun h => by simpa using congrArg Prod.fst h, ?_⟩
  have hx0 : (0 : ℝ × ℝ) = (0, 0) := rfl
  rw [hx0]
  obtain ⟨hexc, hle, hx, -, hc, hs, hm⟩ := C74_run mnEnv (3 / 5) 10 (0, 0) (1, 0) (fun _ => rfl)
  obtain ⟨-, -, f3, f4, -⟩ := frame_full mnEnv (3 / 5) 10 (fun b => mnEnv.norm (mnEnv.prec 0 b)) (minAdvance mnEnv) (fun s => s.d)
    (fun _ s => s) (minInit mnEnv) (fun s => s.x) (fun s => s.b) (0, 0) (1, 0) (minSeq mnEnv (0, 0) (1, 0)) rfl rfl rfl rfl (fun _ => rfl)
    (fun _ _ => ⟨rfl, rfl⟩) (fun _ _ => rfl) (fun _ => rfl)
  have d0 : (minSeq mnEnv (0, 0) (1, 0) 0).d = 4 := by rw [mn_state0]
  have d1 : (minSeq mnEnv (0, 0) (1, 0) 1).d = 2 := by rw [mn_state1]
  have x1 : (minSeq mnEnv (0, 0) (1, 0) 1).x = (0, 0) := by rw [mn_state1]
  have n0 : small mnEnv (3 / 5) 4 4 = false := by simp [small, mnEnv]; norm_num
  have n1 : small mnEnv (3 / 5) 4 2 = true := by simp [small, mnEnv]; left; norm_num
  have hi : (minApply mnEnv (3 / 5) 10 (0, 0) (1, 0)).it.i = 1 := by
    have h1 : (minApply mnEnv (3 / 5) 10 (0, 0) (1, 0)).it.i ≤ 1 := by
      by_contra hgt
      have := hs 1 (by omega)
      rw [d0, d1, n1] at this; cases this
    have h2 : (minApply mnEnv (3 / 5) 10 (0, 0) (1, 0)).it.i ≠ 0 := by
      intro h0
      rw [h0, d0, n0] at hc
      have := hm hc
      omega
    omega
  have g0 : (minApply mnEnv (3 / 5) 10 (0, 0) (1, 0)).it.def0 = 4 := f3.trans d0
  have g1 : (minApply mnEnv (3 / 5) 10 (0, 0) (1, 0)).it.cur = 2 := by
    have : (minApply mnEnv (3 / 5) 10 (0, 0) (1, 0)).it.cur = (minSeq mnEnv (0, 0) (1, 0) (minApply mnEnv (3 / 5) 10 (0, 0) (1, 0)).it.i).d := f4
    rw [this, hi, d1]
  refine ⟨hexc, ?_, ?_, ?_⟩
  · rw [hx, hi, x1]; rfl
  · change small _ _ _ _ = true
    rw [g0, g1, n1]
  · change _ / _ = _
    rw [g0, g1]; norm_num

end Solver
end Istl
