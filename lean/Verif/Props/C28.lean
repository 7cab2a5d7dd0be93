import Verif.Props.C27

/-!
# C28: iterative solvers stop within the iteration limit

`e.it.i` is the number of the last registered step (BiCGSTAB: half steps). For LoopSolver, GradientSolver, CGSolver, MINRESSolver and
BiCGSTABSolver the model is a structurally terminating loop. The other solvers contain `while` loops whose bound is not syntactic; their
models take a fuel argument and `none` means "still running". The termination theorems give fuel that always suffices, and the
divergence theorems show that no fuel suffices for the excluded parameters. No law of arithmetic is assumed.
-/

namespace Istl
namespace Solver

variable {K Rl X : Type}

section
variable [Add X] [SMul K X] [Mul Rl] [Zero Rl] [Div Rl] [Zero K] [Neg K] [Div K]

/-- At most `maxit` steps; exactly `maxit` if the solver returns without convergence. -/
theorem C28_loop (E : Env K Rl X) (red : Rl) (maxit : Nat) (x b : X) :
    (loopApply (K := K) E red maxit x b).it.i ≤ maxit ∧ ((loopApply (K := K) E red maxit x b).exc = none →
      (loopApply (K := K) E red maxit x b).it.converged = false → (loopApply (K := K) E red maxit x b).it.i = maxit) :=
  ⟨(loop_run E red maxit x b).bound, fun h => ((loop_run E red maxit x b).ok h).2.2.2⟩

theorem C28_gradient (E : Env K Rl X) (red : Rl) (maxit : Nat) (x b : X) :
    (gradApply E red maxit x b).it.i ≤ maxit ∧ ((gradApply E red maxit x b).exc = none →
      (gradApply E red maxit x b).it.converged = false → (gradApply E red maxit x b).it.i = maxit) :=
  ⟨(grad_run E red maxit x b).bound, fun h => ((grad_run E red maxit x b).ok h).2.2.2⟩

theorem C28_cg (E : Env K Rl X) (red : Rl) (maxit : Nat) (x b : X) :
    (cgApply E red maxit x b).it.i ≤ maxit ∧ ((cgApply E red maxit x b).exc = none →
      (cgApply E red maxit x b).it.converged = false → (cgApply E red maxit x b).it.i = maxit) :=
  ⟨(cg_run E red maxit x b).bound, fun h => ((cg_run E red maxit x b).ok h).2.2.2⟩

/-- BiCGSTAB: at most `2 maxit` half steps, so at most `maxit` reported iterations. -/
theorem C28_bicgstab [One K] [Mul K] [Zero X] (E : Env K Rl X) (red : Rl) (maxit : Nat) (x b : X) :
    (biApply E red maxit x b).it.i ≤ 2 * maxit ∧ ((biApply E red maxit x b).it.finalizeHalf E red).iterations ≤ maxit ∧
      ((biApply E red maxit x b).exc = none → (biApply E red maxit x b).it.converged = false →
        (biApply E red maxit x b).it.i = 2 * maxit) := by
  have h := (bi_run E red maxit x b)
  refine ⟨h.bound, ?_, fun hx => (h.ok hx).2.2.2⟩
  have := h.bound
  change (biApply E red maxit x b).it.i / 2 ≤ maxit
  omega

end

section
variable [Add X] [SMul K X] [Zero X] [Zero K] [One K] [Neg K] [Mul K] [Div K] [Zero Rl] [Mul Rl] [Div Rl]

/-- GeneralizedPCGSolver: with `restart ≥ 2` it returns, after at most `max(1,maxit)` steps (one step is done even for `maxit = 0`). -/
theorem C28_gpcg (E : Env K Rl X) (red : Rl) (maxit restart : Nat) (x b : X) (hr : 2 ≤ restart) :
    ∃ e, (∀ fuel, maxit ≤ fuel → gpApply E red maxit restart fuel x b = some e) ∧ e.it.i ≤ max 1 maxit ∧
      (e.exc = none → e.it.converged = false → e.it.i = max 1 maxit) := by
  have tot : ∀ fuel, maxit ≤ fuel → (gpApply E red maxit restart fuel x b).isSome := by
    intro fuel hf
    unfold gpApply
    dsimp only
    cases hs : It.start.step E red 0 (E.norm (E.subOp (E.pre x b).1 (E.pre x b).2)) with
    | none => rfl
    | some it =>
      obtain ⟨g, hi, -, -⟩ := good_start hs
      dsimp only
      split
      · rfl
      · generalize gpMinimise E 0 _ = st
        have e01 : (1 : Nat) = it.i + 1 := by omega
        cases hs1 : it.step E red 1 st.d with
        | none => rfl
        | some it1 =>
          dsimp only
          rw [e01] at hs1
          obtain ⟨g1, hi1, -, -⟩ := good_step g hs1
          split
          · rfl
          · rw [Option.isSome_map]
            have hi1' : it1.i = 1 := by omega
            have := gpOuter_total (E := E) (red := red) (maxit := maxit) hr fuel st it1 g1 (by omega)
            rwa [hi1'] at this
  obtain ⟨e, he⟩ := Option.isSome_iff_exists.1 (tot maxit (le_refl _))
  refine ⟨e, fun fuel hf => ?_, (gp_run he).bound, fun hx => ((gp_run he).ok hx).2.2.2⟩
  have mono : ∀ f i (st : GpSt K X Rl) (it : It Rl) r, gpOuter E red maxit restart f i st it = some r →
      ∀ f', f ≤ f' → gpOuter E red maxit restart f' i st it = some r := by
    intro f
    induction f with
    | zero =>
      intro i st it r h f' _
      unfold gpOuter at h
      split at h
      · cases h
      · rename_i hc
        cases f' with
        | zero => unfold gpOuter; rw [if_neg hc]; exact h
        | succ f' => unfold gpOuter; rw [if_neg hc]; exact h
    | succ f ih =>
      intro i st it r h f' hf'
      obtain ⟨f'', rfl⟩ : ∃ f'', f' = f'' + 1 := ⟨f' - 1, by omega⟩
      unfold gpOuter at h ⊢
      split
      · rename_i hc
        rw [if_pos hc] at h
        dsimp only at h ⊢
        split at h
        · rename_i e' he'
          exact h
        · rename_i he'
          split
          · rename_i hcv; rw [if_pos hcv] at h; exact h
          · rename_i hcv
            rw [if_neg hcv] at h
            exact ih _ _ _ _ h _ (by omega)
      · rename_i hc
        rw [if_neg hc] at h
        exact h
  unfold gpApply at he ⊢
  dsimp only at he ⊢
  cases hs : It.start.step E red 0 (E.norm (E.subOp (E.pre x b).1 (E.pre x b).2)) with
  | none => rw [hs] at he; exact he
  | some it =>
    rw [hs] at he
    dsimp only at he ⊢
    split
    · rename_i hcv; rw [if_pos hcv] at he; exact he
    · rename_i hcv
      rw [if_neg hcv] at he
      generalize gpMinimise E 0 _ = st at he ⊢
      cases hs1 : it.step E red 1 st.d with
      | none => rw [hs1] at he; exact he
      | some it1 =>
        rw [hs1] at he
        dsimp only at he ⊢
        split
        · rename_i hcv1; rw [if_pos hcv1] at he; exact he
        · rename_i hcv1
          rw [if_neg hcv1, Option.map_eq_some_iff] at he
          obtain ⟨r, hr', rfl⟩ := he
          rw [mono _ _ _ _ _ hr' fuel hf]
          rfl

/-- **GeneralizedPCGSolver with `restart = 1`**: if one step does not suffice (the solver with `maxit = 1` returns unconverged) it never
returns for any larger limit. -/
theorem C28_gpcg_restart1_diverges (E : Env K Rl X) (red : Rl) (maxit : Nat) (x b : X) (hmax : 2 ≤ maxit) (e : Exit X Rl)
    (he : gpApply E red 1 1 0 x b = some e) (hx : e.exc = none) (hc : e.it.converged = false) (fuel : Nat) :
    gpApply E red maxit 1 fuel x b = none := by
  unfold gpApply at he ⊢
  dsimp only at he ⊢
  cases hs : It.start.step E red 0 (E.norm (E.subOp (E.pre x b).1 (E.pre x b).2)) with
  | none => rw [hs] at he; obtain rfl := Option.some.inj he; cases hx
  | some it =>
    rw [hs] at he
    dsimp only at he ⊢
    by_cases hcv : it.converged = true
    · rw [if_pos hcv] at he; obtain rfl := Option.some.inj he; rw [hcv] at hc; cases hc
    · rw [if_neg hcv] at he ⊢
      generalize gpMinimise E 0 _ = st at he ⊢
      cases hs1 : it.step E red 1 st.d with
      | none => rw [hs1] at he; obtain rfl := Option.some.inj he; cases hx
      | some it1 =>
        rw [hs1] at he
        dsimp only at he ⊢
        by_cases hcv1 : it1.converged = true
        · rw [if_pos hcv1] at he; obtain rfl := Option.some.inj he; rw [hcv1] at hc; cases hc
        · rw [if_neg hcv1, gpOuter_diverges fuel 1 _ it1 (by omega) (by simpa using hcv1)]
          rfl

theorem fc_total {E : Env K Rl X} {red : Rl} {maxit mmax : Nat} {x b : X} {orth : Nat → X → FcSt K X Rl → FcSt K X Rl}
    {cycle : FcSt K X Rl → Nat × FcSt K X Rl} (hc : ∀ st, (cycle st).1 ≤ mmax) (fuel : Nat) (hf : maxit ≤ fuel) :
    (fcApply E orth cycle red maxit mmax fuel x b).isSome := by
  unfold fcApply
  dsimp only
  cases hs : It.start.step E red 0 (E.norm (E.subOp (E.pre x b).1 (E.pre x b).2)) with
  | none => rfl
  | some it =>
    obtain ⟨g, hi, -, -⟩ := good_start hs
    dsimp only
    split
    · rfl
    · rw [Option.isSome_map, show (1 : Nat) = it.i + 1 by omega]
      exact fcOuter_total hc fuel 0 _ it (by omega) g (by omega)

/-- RestartedFCGSolver: with `mmax ≥ 1` it returns, after at most `maxit` steps. -/
theorem C28_restartedfcg (E : Env K Rl X) (red : Rl) (maxit mmax : Nat) (x b : X) (hm : 1 ≤ mmax) (fuel : Nat) (hf : maxit ≤ fuel) :
    ∃ e, rfcgApply E red maxit mmax fuel x b = some e ∧ e.it.i ≤ maxit ∧
      (e.exc = none → e.it.converged = false → e.it.i = maxit) := by
  obtain ⟨e, he⟩ := Option.isSome_iff_exists.1
    (fc_total (E := E) (red := red) (x := x) (b := b) (orth := fcOrthRestarted E) (cycle := fcCycleRestarted mmax)
      (fun _ => hm) fuel hf)
  exact ⟨e, he, (rfcg_run he).bound, fun hx => ((rfcg_run he).ok hx).2.2.2⟩

/-- CompleteFCGSolver returns, after at most `maxit` steps. -/
theorem C28_completefcg (E : Env K Rl X) (red : Rl) (maxit mmax : Nat) (x b : X) (fuel : Nat) (hf : maxit ≤ fuel) :
    ∃ e, cfcgApply E red maxit mmax fuel x b = some e ∧ e.it.i ≤ maxit ∧
      (e.exc = none → e.it.converged = false → e.it.i = maxit) := by
  obtain ⟨e, he⟩ := Option.isSome_iff_exists.1
    (fc_total (E := E) (red := red) (x := x) (b := b) (orth := fcOrthComplete E) (cycle := fcCycleComplete mmax)
      (fun _ => Nat.zero_le _) fuel hf)
  exact ⟨e, he, (cfcg_run he).bound, fun hx => ((cfcg_run he).ok hx).2.2.2⟩

/-- **RestartedFCGSolver with `mmax = 0`**: if one step does not suffice (the solver with `maxit = 1` returns unconverged) it never
returns for any larger limit: `cycle` sets `i_bounded = 1 > mmax`, so the inner loop is empty from then on. -/
theorem C28_restartedfcg_mmax0_diverges (E : Env K Rl X) (red : Rl) (maxit : Nat) (x b : X) (hmax : 2 ≤ maxit) (e : Exit X Rl)
    (he : rfcgApply E red 1 0 1 x b = some e) (hx : e.exc = none) (hc : e.it.converged = false) (fuel : Nat) :
    rfcgApply E red maxit 0 fuel x b = none := by
  unfold rfcgApply fcApply at he ⊢
  dsimp only at he ⊢
  cases hs : It.start.step E red 0 (E.norm (E.subOp (E.pre x b).1 (E.pre x b).2)) with
  | none => rw [hs] at he; obtain rfl := Option.some.inj he; cases hx
  | some it =>
    rw [hs] at he
    dsimp only at he ⊢
    by_cases hcv : it.converged = true
    · rw [if_pos hcv] at he; obtain rfl := Option.some.inj he; rw [hcv] at hc; cases hc
    · have hcv' : it.converged = false := by simpa using hcv
      rw [if_neg hcv, Option.map_eq_some_iff] at he
      obtain ⟨r, hr, rfl⟩ := he
      rw [if_neg hcv, Option.map_eq_none_iff]
      cases fuel with
      | zero => unfold fcOuter; rw [if_pos ⟨by omega, hcv'⟩]
      | succ fuel =>
        unfold fcOuter at hr ⊢
        rw [if_pos ⟨by omega, hcv'⟩] at hr ⊢
        obtain ⟨k, rfl⟩ : ∃ k, maxit = k + 2 := ⟨maxit - 2, by omega⟩
        simp only [show 1 + 1 - 1 = 0 + 1 by omega, show k + 2 + 1 - 1 = k + 1 + 1 by omega] at hr ⊢
        rw [fcInner, if_pos (le_refl _)] at hr ⊢
        dsimp only at hr ⊢
        generalize fcStep E (fcOrthRestarted E) 1 0 _ = st at hr ⊢
        cases hs1 : it.step E red 1 st.def' with
        | none => rw [hs1] at hr; obtain rfl := Option.some.inj hr; cases hx
        | some it1 =>
          rw [hs1] at hr
          dsimp only at hr ⊢
          rw [fcInner] at hr
          rw [fcInner, if_neg (by omega)]
          dsimp only at hr ⊢
          refine fcOuter_diverges fuel 2 _ it1 (by omega) ?_
          unfold fcOuter at hr
          rw [if_neg (by omega)] at hr
          obtain rfl := Option.some.inj hr
          exact hc

variable [Add K] [Sub K] [One Rl] [Add Rl]

theorem C28_minres (E : Env K Rl X) (red : Rl) (maxit : Nat) (x b : X) :
    (minApply E red maxit x b).it.i ≤ maxit ∧ ((minApply E red maxit x b).exc = none →
      (minApply E red maxit x b).it.converged = false → (minApply E red maxit x b).it.i = maxit) :=
  ⟨(min_run E red maxit x b).bound, fun h => ((min_run E red maxit x b).ok h).2.2.2⟩

theorem gm_total [DecidableEq K] {E : Env K Rl X} {red : Rl} {maxit m fuel : Nat} {stp : Nat → GmSt K X Rl → Option (GmSt K X Rl)}
    {start restart : GmSt K X Rl → GmSt K X Rl} {d : Rl} {st0 : GmSt K X Rl} {e1 e2 : It Rl → Exit X Rl} (hm : 0 < m)
    (hf : maxit ≤ fuel) :
    (match It.start.step E red 0 d with
      | none => some (e1 It.start)
      | some it =>
        if it.converged then some (e2 it)
        else (gmOuter E red maxit m stp start restart fuel 1 st0 it).map (gmExit E)).isSome := by
  cases hs : It.start.step E red 0 d with
  | none => rfl
  | some it =>
    obtain ⟨g, hi, -, -⟩ := good_start hs
    dsimp only
    split
    · rfl
    · rw [Option.isSome_map, show (1 : Nat) = it.i + 1 by omega]
      exact gmOuter_total hm fuel st0 it g (by omega)

/-- RestartedGMResSolver: with `restart ≥ 1` it returns, after at most `maxit` steps. -/
theorem C28_gmres [DecidableEq K] (E : Env K Rl X) (red : Rl) (maxit m : Nat) (x b : X) (hm : 0 < m) (fuel : Nat)
    (hf : maxit ≤ fuel) :
    ∃ e, gmApply E red maxit m fuel x b = some e ∧ e.it.i ≤ maxit ∧ (e.exc = none → e.it.converged = false → e.it.i = maxit) := by
  have : (gmApply E red maxit m fuel x b).isSome := by
    unfold gmApply gmApplyWith
    exact gm_total (e1 := fun it => ⟨_, _, it, _⟩) (e2 := fun it => ⟨_, _, it, none⟩) hm hf
  obtain ⟨e, he⟩ := Option.isSome_iff_exists.1 this
  exact ⟨e, he, (gm_run hm he).bound, fun hx => ((gm_run hm he).ok hx).2.2.2⟩

/-- RestartedFlexibleGMResSolver: with `restart ≥ 1` it returns, after at most `maxit` steps. -/
theorem C28_fgmres [DecidableEq K] (E : Env K Rl X) (red : Rl) (maxit m : Nat) (x b : X) (hm : 0 < m) (fuel : Nat)
    (hf : maxit ≤ fuel) :
    ∃ e, fgmApply E red maxit m fuel x b = some e ∧ e.it.i ≤ maxit ∧ (e.exc = none → e.it.converged = false → e.it.i = maxit) := by
  have : (fgmApply E red maxit m fuel x b).isSome := by
    unfold fgmApply fgmApplyWith
    exact gm_total (e1 := fun it => ⟨_, _, it, _⟩) (e2 := fun it => ⟨_, _, it, none⟩) hm hf
  obtain ⟨e, he⟩ := Option.isSome_iff_exists.1 this
  exact ⟨e, he, (fgm_run hm he).bound, fun hx => ((fgm_run hm he).ok hx).2.2.2⟩

/-- **RestartedGMResSolver with `restart = 0`** never returns if the initial defect has not converged. -/
theorem C28_gmres_restart0_diverges [DecidableEq K] (E : Env K Rl X) (red : Rl) (maxit : Nat) (x b : X) (hmax : 1 ≤ maxit)
    (e : Exit X Rl) (he : gmApply E red 0 0 0 x b = some e) (hx : e.exc = none) (hc : e.it.converged = false)
    (fuel : Nat) : gmApply E red maxit 0 fuel x b = none := by
  unfold gmApply gmApplyWith at he ⊢
  dsimp only at he ⊢
  cases hs : It.start.step E red 0 (E.norm (E.prec 0 (E.subOp (E.pre x b).1 (E.pre x b).2))) with
  | none => rw [hs] at he; obtain rfl := Option.some.inj he; cases hx
  | some it =>
    rw [hs] at he
    dsimp only at he ⊢
    by_cases hcv : it.converged = true
    · rw [if_pos hcv] at he; obtain rfl := Option.some.inj he; rw [hcv] at hc; cases hc
    · rw [if_neg hcv, gmOuter_diverges fuel 1 _ it hmax (by simpa using hcv)]
      rfl

end

/-! ## Non-vacuity -/

/-- Runs that end at the limit without convergence, for several solvers. -/
example : (gradApply demoEnv (1 / 10000000) 3 (0, 0) (1, 2)).it.i = 3 ∧
    (rfcgApply demoEnv (1 / 10000000) 1 2 1 (0, 0) (1, 2)).map (fun e => (e.it.i, e.exc)) = some (1, none) ∧
    (gpApply demoEnv (1 / 10000000) 0 2 0 (0, 0) (1, 2)).map (fun e => (e.it.i, e.exc)) = some (1, none) ∧
    (gmApply demoEnv (1 / 10000000) 3 2 3 (0, 0) (1, 2)).map (fun e => (e.it.i, e.exc)) = some (3, none) := by
  refine ⟨by decide +kernel, by decide +kernel, by decide +kernel, by decide +kernel⟩

theorem hyp_of_map {o : Option (Exit X Rl)} (h : o.map (fun e => (e.exc, e.it.converged)) = some (none, false)) :
    ∃ e, o = some e ∧ e.exc = none ∧ e.it.converged = false := by
  obtain ⟨e, he, hh⟩ := Option.map_eq_some_iff.1 h
  exact ⟨e, he, (Prod.mk.inj hh).1, (Prod.mk.inj hh).2⟩

/-- The hypotheses of the divergence theorems hold on the example. -/
example (fuel : Nat) : gpApply demoEnv (1 / 10000000) 5 1 fuel (0, 0) (1, 2) = none := by
  obtain ⟨e, h1, h2, h3⟩ := hyp_of_map (o := gpApply demoEnv (1 / 10000000) 1 1 0 (0, 0) (1, 2)) (by decide +kernel)
  exact C28_gpcg_restart1_diverges demoEnv (1 / 10000000) 5 (0, 0) (1, 2) (by omega) e h1 h2 h3 fuel

example (fuel : Nat) : rfcgApply demoEnv (1 / 10000000) 5 0 fuel (0, 0) (1, 2) = none := by
  obtain ⟨e, h1, h2, h3⟩ := hyp_of_map (o := rfcgApply demoEnv (1 / 10000000) 1 0 1 (0, 0) (1, 2)) (by decide +kernel)
  exact C28_restartedfcg_mmax0_diverges demoEnv (1 / 10000000) 5 (0, 0) (1, 2) (by omega) e h1 h2 h3 fuel

example (fuel : Nat) : gmApply demoEnv (1 / 10000000) 5 0 fuel (0, 0) (1, 2) = none := by
  obtain ⟨e, h1, h2, h3⟩ := hyp_of_map (o := gmApply demoEnv (1 / 10000000) 0 0 0 (0, 0) (1, 2)) (by decide +kernel)
  exact C28_gmres_restart0_diverges demoEnv (1 / 10000000) 5 (0, 0) (1, 2) (by omega) e h1 h2 h3 fuel

end Solver
end Istl
