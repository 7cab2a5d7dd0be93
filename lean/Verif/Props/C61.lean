import Verif.Lemmas.AmgSolve3
import Verif.Props.C51
import Verif.Props.C30

/-! # C61 — AMG as a whole: hierarchy, smoothers, transfer operators and cycle together -/

namespace Istl
namespace Amg
open Prec Gsetc
variable {R K V : Type}
variable [Ring R] [Field K] [LinearOrder K] [IsStrictOrderedRing K] [AddCommGroup V] [Module R V] [Module K V] {D : V → V → K}

/-- **C61.** On every level of the hierarchy of a symmetric positive definite matrix, SOR and SSOR sweeps (`0 < w < 2`, at least one sweep)
are smoothers that never fail, are transposes of each other when pre- and post-smoothing, and reduce the energy of every error. -/
theorem C61_smoothers [FiniteDimensional K V] [Nontrivial V] (hD : ScalarProd D) (β : BlockSolve R V V) (act : R →+ V →+ V)
    (hβ : β.act = fun b => act b) (hact : ∀ a (c : K) x, act a (c • x) = c • act a x) {A : SpMat R} {s : MH R} (H : IsHierarchy A s)
    (hW : A.WF) (hsq : A.n = A.m) (hA : A.Symmetric D (fun b => act b)) (hP : A.PosDef D (fun b => act b))
    (k : Nat) (hk : 0 < k) (w : K) (h0 : 0 < w) (h2 : w < 2) (l : Nat) :
    SpdSmoother D (fun b => act b) (s.level l) (sorSmoother β k w) ∧ SpdSmoother D (fun b => act b) (s.level l) (ssorSmoother β k w) := by
  have hwf := level_wf H hW hsq l
  have hsp := level_spd hD act H hA hP l
  obtain ⟨q1, q2, q3⟩ := posdef_diag hD act hact (s.level l) hwf.1 hwf.2 hsp.2
  rw [← hβ] at q3 hsp ⊢
  have hβ' : ∀ a (c : K) x, β.act a (c • x) = c • β.act a x := by rw [hβ]; exact hact
  exact ⟨sor_smoother hD β hβ' _ q1 q2 q3 hsp.1 hsp.2 k hk w h0 h2, ssor_smoother hD β hβ' _ q1 q2 q3 hsp.1 hsp.2 k hk w h0 h2⟩

/-- What a preconditioner for a symmetric positive definite matrix has to be: `M` is linear, symmetric and positive definite on the vectors
with `n` blocks, and one step `u ← u + M (A x - A u)` reduces the energy of every error. -/
structure SpdPreconditioner (D : V → V → K) (act : R → V →+ V) (A : SpMat R) (M : Module.End K (Nat → V)) : Prop where
  size : ∀ b, OfSize A.n b → OfSize A.n (M b)
  symm : ∀ b c, blockDot D A.n (M b) c = blockDot D A.n b (M c)
  pos : ∀ b, OfSize A.n b → b ≠ 0 → 0 < blockDot D A.n (M b) b
  step : ∀ x u, OfSize A.n x → OfSize A.n u → x ≠ u →
    A.energy D act (x - (u + M (levelMul act A x - levelMul act A u))) < A.energy D act (x - u)

/-- **C61.** For every block matrix that is symmetric and positive definite (with a symmetric sparsity pattern), every dependency criterion,
every aggregation and coarsening parameters, every smoother that is good on each level, every number of smoothing steps but zero, every cycle
(`gamma`) and every damping factor between 0 and 1: building the hierarchy succeeds, and with an exact coarse solver every `apply` succeeds,
whatever the vectors contain from before, and computes the same linear, symmetric, positive definite, energy reducing operator. -/
theorem C61_preconditioner [FiniteDimensional K V] (hD : ScalarProd D) (act : R →+ V →+ V)
    (hact : ∀ a (c : K) x, act a (c • x) = c • act a x) (dep : Bool → SpMat R → Props) (c : Crit) (h : HierCrit) (fuel : Nat) (junk : R)
    (hc : c.minSize ≤ c.maxSize) (A : SpMat R) (hW : A.WF) (hsq : A.n = A.m) (hsym : ∀ i j, A.Has i j → A.Has j i) (hf : A.n + 1 ≤ fuel)
    (hA : A.Symmetric D (fun b => act b)) (hP : A.PosDef D (fun b => act b)) :
    ∃ s, MH.build dep c h fuel junk A = some (.ok s) ∧ IsHierarchy A s ∧
      ∀ (sm : Smoother R V) (cs : (Nat → V) → (Nat → V) → (Nat → V) × (Nat → V) × Bool) (damp : K) (steps gamma : Nat),
        (∀ l, SpdSmoother D (fun b => act b) (s.level l) sm) → ExactSolver (fun b => act b) (s.level (s.mats.length - 1)) cs →
        0 ≤ damp → damp ≤ 1 → 0 < steps →
        ∃ M : Module.End K (Nat → V), SpdPreconditioner D (fun b => act b) A M ∧
          ∀ (st : State (Nat → V)) (v d : Nat → V), st.Sized (amgOf (fun b => act b) sm s cs damp steps gamma) → st.conv = true →
            ∃ st', amgApply (amgOf (fun b => act b) sm s cs damp steps gamma) v d st = .ok (M d) st' ∧
              st'.Sized (amgOf (fun b => act b) sm s cs damp steps gamma) ∧ st'.conv = true := by
  obtain ⟨s, e, H, _⟩ := C59_build dep c h fuel junk hc A hW hsq hsym hf
  refine ⟨s, e, H, ?_⟩
  intro sm cs damp steps gamma hsm hcs hd0 hd1 hst
  obtain ⟨W, A', S1, S2, Rs, Pr, C, HS, hC, hW0, hA0, _⟩ := amg_spd hD act hact H hA hP sm hsm cs hcs damp ⟨hd0, hd1⟩ steps gamma
  set S := amgOf (fun b => act b) sm s cs damp steps gamma with hS
  have hBD := blockDot_scalarProd hD A.n
  have hadd : ∀ l x y, S.mat l (x + y) = S.mat l x + S.mat l y := fun l x y => by rw [HS.mat, map_add]
  obtain ⟨M, eM, mM, _, _⟩ := mg_spd hBD HS (show 0 < S.preSteps from hst) S.coarsest 0 (by omega)
  have hconv : S.Converges := fun b => (hcs _ (ofSize_cut _ b)).2.2
  have run : ∀ (st : State (Nat → V)) (v d : Nat → V), st.Sized S → st.conv = true →
      ∃ st', amgApply S v d st = .ok (M d) st' ∧ st'.Sized S ∧ st'.conv = true := by
    intro st v d h1 h2
    rcases C46_apply_is_the_cycle S hadd st h1 v d with ⟨st', q, q1, _, q3⟩ | ⟨st', _, _, _, _, q3⟩
    · rw [eM] at q; exact ⟨st', q, q1, by rw [q3 hconv, h2]⟩
    · rw [q3 hconv] at h2; simp at h2
  let st0 : State (Nat → V) := ⟨fineCursor, List.replicate (S.coarsest + 1) 0, List.replicate (S.coarsest + 1) 0,
    List.replicate (S.coarsest + 1) 0, true⟩
  have hst0 : st0.Sized S := ⟨by simp [st0], by simp [st0], by simp [st0]⟩
  refine ⟨M, ⟨?_, ?_, ?_, ?_⟩, run⟩
  · intro b hb; exact (hW0 _).1 (mM b ((hW0 b).2 hb))
  · intro b c'
    obtain ⟨t1, r1, _⟩ := run st0 0 b hst0 rfl
    obtain ⟨t2, r2, _⟩ := run st0 0 c' hst0 rfl
    exact C51_symmetric hBD HS.toSymHierarchy hC st0 st0 t1 t2 hst0 hst0 0 0 b c' _ _ r1 r2
  · intro b hb hne
    obtain ⟨t1, r1, _⟩ := run st0 0 b hst0 rfl
    exact C51_positive hBD HS hst st0 t1 hst0 0 b _ ((hW0 b).2 hb) hne r1
  · intro x u hx hu hne
    obtain ⟨t1, r1, _⟩ := run st0 0 (A' 0 x - A' 0 u) hst0 rfl
    have := C51_step_reduces_energy hBD HS hst st0 t1 hst0 0 x u _ ((hW0 x).2 hx) ((hW0 u).2 hu) hne r1
    have em : ∀ y z, blockDot D A.n (A' 0 y) z = blockDot D A.n (A.apply (fun b => act b) y) z := fun y z =>
      blockDot_congr (fun i hi => by rw [hA0]; simp [levelMul, hi]) (fun _ _ => rfl)
    rw [em, em, hA0 x, hA0 u] at this
    exact this

/-- The setting in which `CGSolver` runs with such a preconditioner: the block vectors have exactly `A.n` blocks, the scalar product is the sum
over the blocks, the operator is the matrix and each preconditioner call is a call of `apply` on an `AMG` object none of whose coarse solves has failed. -/
structure AmgEnv {Rl : Type} (D : V → V → K) (act : R → V →+ V) (A : SpMat R) (S : Setup K (Nat → V))
    (E : Solver.Env K Rl (Fin A.n → V)) : Prop where
  dot : ∀ x y, E.dot x y = ∑ i, D (x i) (y i)
  op : ∀ x i, E.op x i = A.apply act (extend x) i
  sub : ∀ x b, E.subOp x b = b - E.op x
  prec : ∀ k b, ∃ st v st' z, State.Sized st S ∧ st.conv = true ∧ amgApply S v (extend b) st = .ok z st' ∧ ∀ i : Fin A.n, E.prec k b i = z i

theorem blockDot_extend (n : Nat) (x y : Fin n → V) : blockDot D n (extend x) (extend y) = ∑ i, D (x i) (y i) := by
  unfold blockDot
  rw [Finset.sum_range]
  exact Finset.sum_congr rfl fun i _ => by simp [extend]

/-- **C61.** Conjugate gradients preconditioned by AMG solve the system exactly: in exact arithmetic, under the hypotheses above, for every start
vector and right hand side the solver returns without exception and converged after at most as many iterations as there are unknowns. -/
theorem C61_cg [FiniteDimensional K V] (hD : ScalarProd D) (act : R →+ V →+ V)
    (hact : ∀ a (c : K) x, act a (c • x) = c • act a x) (dep : Bool → SpMat R → Props) (c : Crit) (h : HierCrit) (fuel : Nat) (junk : R)
    (hc : c.minSize ≤ c.maxSize) (A : SpMat R) (hW : A.WF) (hsq : A.n = A.m) (hsym : ∀ i j, A.Has i j → A.Has j i) (hf : A.n + 1 ≤ fuel)
    (hA : A.Symmetric D (fun b => act b)) (hP : A.PosDef D (fun b => act b)) :
    ∃ s, MH.build dep c h fuel junk A = some (.ok s) ∧
      ∀ (sm : Smoother R V) (cs : (Nat → V) → (Nat → V) → (Nat → V) × (Nat → V) × Bool) (damp : K) (steps gamma : Nat),
        (∀ l, SpdSmoother D (fun b => act b) (s.level l) sm) → ExactSolver (fun b => act b) (s.level (s.mats.length - 1)) cs →
        0 ≤ damp → damp ≤ 1 → 0 < steps → ∀ {Rl : Type} [Mul Rl] [Zero Rl] [Div Rl] (E : Solver.Env K Rl (Fin A.n → V)),
        AmgEnv D (fun b => act b) A (amgOf (fun b => act b) sm s cs damp steps gamma) E →
        (∀ y, E.isZero (E.norm y) = true ↔ y = 0) → (∀ y, E.finite (E.norm y) = true) → E.lt (E.norm 0) E.tiny = true →
        ∀ (red : Rl) (maxit : Nat) (x b : Fin A.n → V), A.n * Module.finrank K V ≤ maxit →
          (Solver.cgApply E red maxit x b).exc = none ∧
          ((Solver.cgApply E red maxit x b).it.finalize E red).converged = true ∧
          ((Solver.cgApply E red maxit x b).it.finalize E red).iterations ≤ A.n * Module.finrank K V := by
  obtain ⟨s, e, H, hall⟩ := C61_preconditioner hD act hact dep c h fuel junk hc A hW hsq hsym hf hA hP
  refine ⟨s, e, ?_⟩
  intro sm cs damp steps gamma hsm hcs hd0 hd1 hst Rl _ _ _ E hE hz hfin htiny red maxit x b hm
  obtain ⟨M, HM, run⟩ := hall sm cs damp steps gamma hsm hcs hd0 hd1 hst
  have hBD := blockDot_scalarProd hD A.n
  let g : LinearMap.BilinForm K (Fin A.n → V) := LinearMap.mk₂ K (fun x y => blockDot D A.n (extend x) (extend y))
    (fun x y z => by rw [extend_add, hBD.add]) (fun c x y => by rw [extend_smul, hBD.smul, smul_eq_mul])
    (fun x y z => by rw [extend_add, hBD.add']) (fun c x y => by rw [extend_smul, hBD.smul', smul_eq_mul])
  let T : (Fin A.n → V) →ₗ[K] (Fin A.n → V) := finOp (fun b => act b) hact A
  let N : (Fin A.n → V) →ₗ[K] (Fin A.n → V) :=
    { toFun := fun x i => M (extend x) i
      map_add' := fun x y => by funext i; rw [extend_add, map_add]; rfl
      map_smul' := fun c x => by funext i; rw [extend_smul, map_smul]; rfl }
  have hT : ∀ x y, blockDot D A.n (extend (T x)) y = blockDot D A.n (A.apply (fun b => act b) (extend x)) y := fun x y =>
    blockDot_congr (fun i hi => by simp [extend, hi, T, finOp]) (fun _ _ => rfl)
  have hN : ∀ x, extend (N x) = M (extend x) := fun x => extend_of (HM.size _ (extend_size x))
  have hopT : ∀ x, E.op x = T x := fun x => funext fun i => hE.op x i
  have hsymS : Solver.Symmetric E g T N :=
    { dot := fun x y => by rw [hE.dot]; exact (blockDot_extend A.n x y).symm
      comm := fun x y => hBD.symm _ _
      op := hopT
      sub := fun x b => by rw [hE.sub, hopT]
      prec := fun k b => by
        obtain ⟨st, v, st', z, h1, h2, h3, h4⟩ := hE.prec k b
        obtain ⟨st'', q, _⟩ := run st v (extend b) h1 h2
        rw [q] at h3
        have := (Out.ok.inj h3).1
        funext i
        rw [h4, ← this]
        rfl
      adjA := fun x y => by
        show blockDot D A.n (extend (T x)) (extend y) = blockDot D A.n (extend x) (extend (T y))
        rw [hT, hA, hBD.symm (extend x), ← hT, hBD.symm]
      adjB := fun x y => by
        show blockDot D A.n (extend (N x)) (extend y) = blockDot D A.n (extend x) (extend (N y))
        rw [hN, hN, HM.symm] }
  have hne : ∀ x : Fin A.n → V, x ≠ 0 → extend x ≠ 0 := by
    intro x hx h0
    apply hx
    funext i
    have := congrFun h0 i
    simpa [extend] using this
  have hrank : Module.finrank K (Fin A.n → V) = A.n * Module.finrank K V := by
    rw [Module.finrank_pi_fintype]
    simp
  rw [← hrank] at hm ⊢
  refine Solver.C30_exact E g T N hsymS ?_ ?_ hz hfin htiny red maxit hm x b
  · intro x hx
    show 0 < blockDot D A.n (extend x) (extend (T x))
    rw [hBD.symm, hT]
    apply hP
    by_contra hcon
    push Not at hcon
    apply hne x hx
    funext i
    by_cases hi : i < A.n
    · exact hcon i hi
    · exact extend_size x i (by omega)
  · intro x hx
    show 0 < blockDot D A.n (extend (N x)) (extend x)
    rw [hN]
    exact HM.pos _ (extend_size x) (hne x hx)

/-- An exact coarse solver exists on every level (the hypothesis on the coarse solver can be met). -/
theorem exact_solver_exists [FiniteDimensional K V] (hD : ScalarProd D) (act : R → V →+ V) (hact : ∀ a (c : K) x, act a (c • x) = c • act a x)
    (L : SpMat R) (hP : L.PosDef D act) : ∃ cs, ExactSolver act L cs := by
  choose f h1 h2 using posdef_surj hD act hact L hP
  exact ⟨fun _ d => (f d, d, true), fun d _ => ⟨h1 d, h2 d, rfl⟩⟩

/-! ### The hypotheses hold: the one-dimensional Laplacian, SOR smoothing with `w = 3/2`, two levels -/

section demo
open Solver

/-- the product of numbers -/
def qAct : ℚ →+ ℚ →+ ℚ := AddMonoidHom.mul

theorem qAct_num : numSolve.act = fun b => qAct b := rfl

/-- the number of rows of each matrix -/
def rowCounts : Option (Res (MH ℚ)) → List Nat
  | some (.ok s) => s.mats.map SpMat.n
  | _ => []

example : rowCounts (MH.build (fun _ _ => demoProps) ⟨2, 3, 2, 15, true⟩ ⟨2, 2, 6 / 5⟩ 6 7 demoLap) = [3, 1] := by decide +kernel

/-- the environment of `CGSolver` with an `AMG` object whose vectors are zero before each call -/
def amgEnv (A : SpMat ℚ) (S : Setup ℚ (Nat → ℚ)) : Env ℚ ℚ (Fin A.n → ℚ) where
  pre x b := (x, b)
  post x := x
  subOp x b := b - fun i : Fin A.n => A.apply numSolve.act (extend x) i
  op x i := A.apply numSolve.act (extend x) i
  prec _ b i := match amgApply S 0 (extend b) ⟨fineCursor, List.replicate (S.coarsest + 1) 0, List.replicate (S.coarsest + 1) 0,
      List.replicate (S.coarsest + 1) 0, true⟩ with
    | .ok z _ => z i
    | _ => 0
  dot x y := ∑ i, mulForm (x i) (y i)
  norm y := ∑ i, y i ^ 2
  lt a b := decide (a < b)
  finite _ := true
  isZero a := decide (a = 0)
  abs a := |a|
  ofReal a := a
  sqrt a := a
  conj a := a
  rsqrt a := a
  tiny := 1
  eps := 0
  rotEps := 0

/-- For every right hand side, CG preconditioned by one V-cycle of this AMG solves the three by three system within three steps. -/
example : ∃ s cs, MH.build (fun _ _ => demoProps) ⟨2, 3, 2, 15, true⟩ ⟨2, 2, 6 / 5⟩ 6 7 demoLap = some (.ok s) ∧
      ExactSolver (fun b => qAct b) (s.level (s.mats.length - 1)) cs ∧
      ∀ b, ((cgApply (amgEnv demoLap (amgOf (fun b => qAct b) (sorSmoother numSolve 1 (3 / 2 : ℚ)) s cs (1 : ℚ) 1 1)) (1 / 100) 3 0 b).it.finalize
        (amgEnv demoLap (amgOf (fun b => qAct b) (sorSmoother numSolve 1 (3 / 2 : ℚ)) s cs (1 : ℚ) 1 1)) (1 / 100)).converged = true := by
  obtain ⟨h1, h2, h3, h4, h5⟩ := demoLap_ok
  have hact : ∀ (a c x : ℚ), qAct a (c • x) = c • qAct a x := fun a c x => by simp [qAct, mul_left_comm]
  have hw : demoLap.WF := fun i hi => ⟨h1 i hi, by
    have hi : i < 3 := hi
    interval_cases i <;> simp [demoLap]⟩
  have hsym : ∀ i j, demoLap.Has i j → demoLap.Has j i := by
    rintro i j ⟨hi, b, hb⟩
    have hi' : i < 3 := hi
    interval_cases i <;> simp [demoLap] at hb
    · rcases hb with ⟨rfl, rfl⟩ | ⟨rfl, rfl⟩
      · exact ⟨by decide, 2, by simp [demoLap]⟩
      · exact ⟨by decide, -1, by simp [demoLap]⟩
    · rcases hb with ⟨rfl, rfl⟩ | ⟨rfl, rfl⟩ | ⟨rfl, rfl⟩
      · exact ⟨by decide, -1, by simp [demoLap]⟩
      · exact ⟨by decide, 2, by simp [demoLap]⟩
      · exact ⟨by decide, -1, by simp [demoLap]⟩
    · rcases hb with ⟨rfl, rfl⟩ | ⟨rfl, rfl⟩
      · exact ⟨by decide, -1, by simp [demoLap]⟩
      · exact ⟨by decide, 2, by simp [demoLap]⟩
  rw [qAct_num] at h4 h5
  obtain ⟨s, e, H, hP⟩ := C61_preconditioner mulForm_ok qAct hact (fun _ _ => demoProps) ⟨2, 3, 2, 15, true⟩ ⟨2, 2, 6 / 5⟩ 6 7 (by decide) demoLap hw rfl hsym
    (by decide) h4 h5
  obtain ⟨s', e', hcg⟩ := C61_cg mulForm_ok qAct hact (fun _ _ => demoProps) ⟨2, 3, 2, 15, true⟩ ⟨2, 2, 6 / 5⟩ 6 7 (by decide) demoLap hw rfl hsym
    (by decide) h4 h5
  rw [e] at e'
  injection e' with e'; injection e' with e'; subst e'
  obtain ⟨cs, hex⟩ := exact_solver_exists mulForm_ok (fun b => qAct b) hact _ (level_spd mulForm_ok qAct H h4 h5 (s.mats.length - 1)).2
  refine ⟨s, cs, e, hex, fun b => ?_⟩
  have hsm : ∀ l, SpdSmoother mulForm (fun b => qAct b) (s.level l) (sorSmoother numSolve 1 (3 / 2 : ℚ)) := fun l =>
    (C61_smoothers mulForm_ok numSolve qAct qAct_num hact H hw rfl h4 h5 1 (by decide) (3 / 2) (by norm_num) (by norm_num) l).1
  obtain ⟨M, _, run⟩ := hP _ cs 1 1 1 hsm hex (by norm_num) (by norm_num) (by decide)
  refine (hcg _ cs 1 1 1 hsm hex (by norm_num) (by norm_num) (by decide) (amgEnv demoLap _) ?_ ?_ (fun _ => rfl) ?_ (1 / 100) 3 0 b ?_).2.1
  · refine ⟨fun x y => rfl, fun x i => rfl, fun x b => rfl, fun k b => ?_⟩
    obtain ⟨st', q, _⟩ := run ⟨fineCursor, List.replicate ((s.mats.length - 1) + 1) 0, List.replicate ((s.mats.length - 1) + 1) 0,
      List.replicate ((s.mats.length - 1) + 1) 0, true⟩ 0 (extend b) ⟨by simp [amgOf], by simp [amgOf], by simp [amgOf]⟩ rfl
    refine ⟨_, 0, st', _, ⟨?_, ?_, ?_⟩, ?_, q, fun i => ?_⟩
    · simp [amgOf]
    · simp [amgOf]
    · simp [amgOf]
    · rfl
    · show (match amgApply _ 0 (extend b) _ with | .ok z _ => z i | _ => (0 : ℚ)) = _
      erw [q]
  · intro y
    simp only [amgEnv, decide_eq_true_eq]
    rw [Finset.sum_eq_zero_iff_of_nonneg (fun i _ => sq_nonneg (y i))]
    constructor
    · intro h; funext i; simpa using h i (Finset.mem_univ i)
    · rintro rfl; simp
  · simp [amgEnv]
  · simp [demoLap]

end demo

end Amg
end Istl
