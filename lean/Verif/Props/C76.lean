import Verif.Lemmas.Fcg3
import Verif.Props.C66

/-!
# C76: the flexible conjugate gradient solvers for symmetric positive definite systems

`RestartedFCGSolver` and `CompleteFCGSolver` with parameter `mmax = m`, for any preconditioner: it may be nonlinear, unsymmetric, and another
one in every call. The theorems hold for any number of cycles. Divisions are in a field, where `x/0 = 0`; `C76_defined` says that none by
zero happens before the defect has vanished, `C76_abort_counterexample` what the code does afterwards.
-/

namespace Istl
namespace Solver
variable {K Rl X : Type} [Field K] [LinearOrder K] [IsStrictOrderedRing K] [AddCommGroup X] [Module K X] [Zero Rl] [Mul Rl]
variable {B : X → X → K} {W : Submodule K X} {A : Module.End K X} {E : Env K Rl X}

/-- `RestartedFCGSolver`: every direction is conjugate to all those of its cycle (and to the last one of the cycle before), and every iterate
minimises the energy over the directions of its cycle. -/
theorem C76_restarted (H : SpdProblem B W A E) (red : Rl) (maxit m fuel : Nat) (hm : 1 ≤ m) (x b : X) (e : Exit X Rl)
    (hb : defect0 E x b ∈ W) (he : rfcgApply E red maxit m fuel x b = some e) (hx : e.exc = none) :
    ∃ xs bs p, e.x = E.post (xs e.it.i) ∧ e.b = bs e.it.i ∧
      FlexRun B W A E.prec (cycleStart m) (E.pre x b).2 (E.pre x b).1 e.it.i xs bs p := by
  obtain ⟨h1, h2⟩ := fc_seq (E := E) (orth := fcOrthRestarted E) (cycle := fcCycleRestarted m) (m := m) (fun _ => hm) (fun _ => ⟨rfl, rfl⟩) he hx
  exact ⟨_, _, _, h1, h2, (restarted_flex (m := m) (st := fcStart E x b) H hm (E.pre x b).2 (defect0_eq H x b) hb).flexRun H e.it.i⟩

/-- `CompleteFCGSolver`: every direction is conjugate to the last `m` ones, and every iterate minimises the energy over the last `m + 1`
directions. -/
theorem C76_complete (H : SpdProblem B W A E) (red : Rl) (maxit m fuel : Nat) (x b : X) (e : Exit X Rl)
    (hb : defect0 E x b ∈ W) (he : cfcgApply E red maxit m fuel x b = some e) (hx : e.exc = none) :
    ∃ xs bs p, e.x = E.post (xs e.it.i) ∧ e.b = bs e.it.i ∧
      FlexRun B W A E.prec (lastStored m) (E.pre x b).2 (E.pre x b).1 e.it.i xs bs p := by
  obtain ⟨h1, h2⟩ := fc_seq (E := E) (orth := fcOrthComplete E) (cycle := fcCycleComplete m) (m := m) (fun _ => Nat.zero_le _)
    (fun _ => ⟨rfl, rfl⟩) he hx
  exact ⟨_, _, _, h1, h2, (complete_flex (m := m) (st := fcStart E x b) H rfl (E.pre x b).2 (defect0_eq H x b) hb).flexRun H e.it.i⟩

/-- With a positive preconditioner a direction computed from a non-zero defect is not zero, so that its energy, the number divided by, is
positive, and the step lowers the energy of the error. -/
theorem C76_defined (H : SpdProblem B W A E) (hP : PrecPositive B W E) (first : Nat → Nat) (hf : ∀ k, first k ≤ first (k + 1)) (c x0 : X)
    (hc : c - A x0 ∈ W) (n : Nat) (xs bs p : Nat → X) (F : FlexRun B W A E.prec first c x0 n xs bs p) (k : Nat) (hk : k < n)
    (hfk : first k ≤ k) (hne : bs k ≠ 0) :
    0 < B (A (p k)) (p k) ∧ quad B A c (xs (k + 1)) < quad B A c (xs k) := by
  have hB := H.prod
  have hbW : ∀ k ≤ n, bs k ∈ W := by
    intro k hk
    induction k with
    | zero => rw [F.defect 0 hk, F.start]; exact hc
    | succ k ih =>
      have e : bs (k + 1) = bs k - A (xs (k + 1) - xs k) := by
        rw [F.defect (k + 1) hk, F.defect k (by omega), map_sub]; abel
      rw [e]
      refine W.sub_mem (ih (by omega)) (H.mem _ ?_)
      obtain ⟨a, ha⟩ := Submodule.mem_span_singleton.mp (F.step k (by omega))
      rw [← ha]
      exact W.smul_mem _ (F.mem k (by omega))
  obtain ⟨q, hq, e⟩ := F.dir k hk
  have ho : B (bs k) q = 0 := by
    refine orth_span hB ?_ q hq
    rintro _ ⟨j, ⟨h1, h2⟩, rfl⟩
    cases k with
    | zero => omega
    | succ k => exact F.orth k (by omega) j ((hf k).trans h1) (by omega)
  have hpos : 0 < B (p k) (bs k) := by
    rw [e, hB.add, hB.symm q, ho, add_zero]
    exact hP k _ (hbW k (by omega)) hne
  have hp0 : p k ≠ 0 := by
    intro h; rw [h, hB.zero] at hpos; exact lt_irrefl _ hpos
  have hA := H.pos _ (F.mem k hk) hp0
  refine ⟨hA, ?_⟩
  -- compare with the minimiser along the direction, started from the iterate itself
  have hmin : ∀ z, z - xs k ∈ Submodule.span K {p k} → quad B A c (xs (k + 1)) ≤ quad B A c z := by
    intro z hz
    obtain ⟨a, ha⟩ := Submodule.mem_span_singleton.mp (F.step k hk)
    obtain ⟨a', ha'⟩ := Submodule.mem_span_singleton.mp hz
    have ez : z = xs (k + 1) + (a' - a) • p k := by
      rw [sub_smul, ha, ha']; abel
    rw [ez, quad_add hB H.symm, map_smul, hB.smul, hB.smul', ← F.defect (k + 1) (by omega), hB.smul', F.orth k hk k hfk (le_refl _)]
    have := mul_nonneg (mul_self_nonneg (a' - a)) hA.le
    nlinarith
  have h := hmin (xs k + (B (p k) (bs k) / B (A (p k)) (p k)) • p k) (by
    rw [add_sub_cancel_left]; exact Submodule.smul_mem _ _ (Submodule.mem_span_singleton_self _))
  refine lt_of_le_of_lt h ?_
  rw [quad_add hB H.symm, map_smul, hB.smul, hB.smul', hB.smul', ← F.defect k (by omega), hB.symm (bs k)]
  have h2 := div_pos (mul_self_pos.mpr hpos.ne') hA
  have e2 : B (p k) (bs k) / B (A (p k)) (p k) * (B (p k) (bs k) / B (A (p k)) (p k) * B (A (p k)) (p k)) -
      2 * (B (p k) (bs k) / B (A (p k)) (p k) * B (p k) (bs k)) = -(B (p k) (bs k) * B (p k) (bs k) / B (A (p k)) (p k)) := by
    field_simp
    ring
  linarith

/-- Conjugate, non-zero directions, as many as there are dimensions: a vector orthogonal to all of them is orthogonal to everything. -/
theorem orth_all [FiniteDimensional K W] (H : SpdProblem B W A E) (n : Nat) (hn : Module.finrank K W ≤ n) (p : Nat → X)
    (hmem : ∀ k < n, p k ∈ W) (hpos : ∀ k < n, 0 < B (A (p k)) (p k)) (hconj : ∀ i j, i < n → j < n → i ≠ j → B (A (p i)) (p j) = 0)
    (v : X) (hv : ∀ k < n, B v (p k) = 0) (z : X) (hz : z ∈ W) : B v z = 0 := by
  let u : Fin n → W := fun j => ⟨p j, hmem j j.2⟩
  have hu : LinearIndependent K u := by
    rw [Fintype.linearIndependent_iff]
    intro g hg i
    have hg' : ∑ j, g j • p j = 0 := by
      have := congrArg (fun w : W => (w : X)) hg
      simpa [u, Submodule.coe_sum] using this
    have hsum : B (A (p i)) (∑ j, g j • p j) = ∑ j, g j * B (A (p i)) (p j) := by
      have : ∀ s : Finset (Fin n), B (A (p i)) (∑ j ∈ s, g j • p j) = ∑ j ∈ s, g j * B (A (p i)) (p j) := by
        intro s
        induction s using Finset.induction_on with
        | empty => rw [Finset.sum_empty, Finset.sum_empty, H.prod.symm, H.prod.zero]
        | insert a s ha ih => rw [Finset.sum_insert ha, Finset.sum_insert ha, H.prod.add', H.prod.smul', ih]
      exact this _
    rw [hg', H.prod.symm, H.prod.zero, Finset.sum_eq_single i] at hsum
    · rcases mul_eq_zero.mp hsum.symm with h | h
      · exact h
      · exact absurd h (hpos i i.2).ne'
    · intro j _ hji
      rw [hconj i j i.2 j.2 (fun h => hji (Fin.ext h.symm)), mul_zero]
    · simp
  have hcard := hu.fintype_card_le_finrank
  rw [Fintype.card_fin] at hcard
  have htop := hu.span_eq_top_of_card_eq_finrank' (by rw [Fintype.card_fin]; omega)
  have hmz : (⟨z, hz⟩ : W) ∈ Submodule.span K (Set.range u) := by rw [htop]; trivial
  have hspan : z ∈ Submodule.span K (p '' {j | j < n}) := by
    have := Submodule.mem_map_of_mem (f := W.subtype) hmz
    rw [Submodule.map_span] at this
    refine Submodule.span_mono ?_ this
    rintro _ ⟨_, ⟨j, rfl⟩, rfl⟩
    exact ⟨j, j.2, rfl⟩
  exact orth_span H.prod (by rintro _ ⟨j, hj, rfl⟩; exact hv j hj) _ hspan

/-- The defect vanishes after as many steps as the space has dimensions, if all directions up to then are made conjugate to each other. -/
theorem C76_exact [FiniteDimensional K W] (H : SpdProblem B W A E) (hP : PrecPositive B W E) (first : Nat → Nat)
    (hf : ∀ k, first k ≤ first (k + 1)) (hle : ∀ k, first k ≤ k) (c x0 : X) (hc : c - A x0 ∈ W) (n : Nat) (xs bs p : Nat → X)
    (F : FlexRun B W A E.prec first c x0 n xs bs p) (hn : Module.finrank K W ≤ n) (h0 : ∀ k < n, k < Module.finrank K W → first k = 0) :
    bs n = 0 := by
  have hbW : ∀ k ≤ n, bs k ∈ W := by
    intro k hk
    induction k with
    | zero => rw [F.defect 0 hk, F.start]; exact hc
    | succ k ih =>
      have e : bs (k + 1) = bs k - A (xs (k + 1) - xs k) := by
        rw [F.defect (k + 1) hk, F.defect k (by omega), map_sub]; abel
      rw [e]
      refine W.sub_mem (ih (by omega)) (H.mem _ ?_)
      obtain ⟨a, ha⟩ := Submodule.mem_span_singleton.mp (F.step k (by omega))
      rw [← ha]
      exact W.smul_mem _ (F.mem k (by omega))
  -- the first zero defect
  have hzero : ∃ k ≤ Module.finrank K W, bs k = 0 := by
    by_contra hall
    push Not at hall
    set N := Module.finrank K W with hN
    have hpos : ∀ k < N, 0 < B (A (p k)) (p k) := fun k hk =>
      (C76_defined H hP first hf c x0 hc n xs bs p F k (by omega) (hle k) (hall k (by omega))).1
    have hconj : ∀ i j, i < N → j < N → i ≠ j → B (A (p i)) (p j) = 0 := by
      intro i j hi hj hij
      rcases Nat.lt_or_gt_of_ne hij with h | h
      · exact F.conj j (by omega) i (by rw [h0 j (by omega) hj]; omega) h
      · rw [H.symm, H.prod.symm]
        exact F.conj i (by omega) j (by rw [h0 i (by omega) hi]; omega) h
    have horth : ∀ k < N, B (bs N) (p k) = 0 := by
      intro k hk
      obtain ⟨M, hM⟩ : ∃ M, N = M + 1 := ⟨N - 1, by omega⟩
      rw [hM]
      exact F.orth M (by omega) k (by rw [h0 M (by omega) (by omega)]; omega) (by omega)
    have hne := hall N (le_refl _)
    have hbN := hbW N hn
    have := orth_all H N (le_refl _) p (fun k hk => F.mem k (by omega)) hpos hconj (bs N) horth (E.prec N (bs N)) (H.prec _ _ hbN)
    have h2 := hP N _ hbN hne
    rw [H.prod.symm, this] at h2
    exact lt_irrefl _ h2
  -- a zero defect stays
  obtain ⟨k, hk, hz⟩ := hzero
  have stay : ∀ i, k + i ≤ n → bs (k + i) = 0 := by
    intro i
    induction i with
    | zero => intro _; exact hz
    | succ i ih =>
      intro hi
      have hz := ih (by omega)
      obtain ⟨a, ha⟩ := Submodule.mem_span_singleton.mp (F.step (k + i) (by omega))
      have e : bs (k + i + 1) = -(a • A (p (k + i))) := by
        have e1 : bs (k + i + 1) = bs (k + i) - A (xs (k + i + 1) - xs (k + i)) := by
          rw [F.defect (k + i + 1) (by omega), F.defect (k + i) (by omega), map_sub]; abel
        rw [e1, hz, ← ha, map_smul, zero_sub]
      have ho := F.orth (k + i) (by omega) (k + i) (hle _) (le_refl _)
      rw [e, ← neg_smul, H.prod.smul] at ho
      rcases mul_eq_zero.mp ho with h | h
      · show bs (k + i + 1) = 0
        rw [e, ← neg_smul, h, zero_smul]
      · show bs (k + i + 1) = 0
        rw [e, H.zero_of (F.mem _ (by omega)) h, map_zero, smul_zero, neg_zero]
  have := stay (n - k) (by omega)
  rwa [show k + (n - k) = n by omega] at this

/-- With a positive preconditioner, at least as many directions stored and iterations allowed as the space has dimensions, every run that does
not throw reports convergence. -/
theorem C76_terminates_restarted [FiniteDimensional K W] (H : SpdProblem B W A E) (hP : PrecPositive B W E) (red : Rl) (maxit m fuel : Nat)
    (hm : 1 ≤ m) (hd : Module.finrank K W ≤ m + 1) (hn : Module.finrank K W ≤ maxit) (h0 : E.lt (E.norm 0) E.tiny = true) (x b : X)
    (e : Exit X Rl) (hb : defect0 E x b ∈ W) (he : rfcgApply E red maxit m fuel x b = some e) (hx : e.exc = none) :
    e.it.converged = true := by
  by_contra hc
  have hc : e.it.converged = false := by simpa using hc
  obtain ⟨g, _, ⟨y, _, hcur⟩, hmax⟩ := (rfcg_run he).ok hx
  have hi := hmax hc
  obtain ⟨xs, bs, p, _, h2, F⟩ := C76_restarted H red maxit m fuel hm x b e hb he hx
  have hz := C76_exact H hP (cycleStart m) (fun _ => cycleStart_le hm) (fun _ => (cycleStart_step hm).1) _ _
    (by rw [← defect0_eq H]; exact hb) _ xs bs p F (by omega)
    (fun k _ hk => by
      unfold cycleStart
      rw [Nat.div_eq_of_lt (by omega), Nat.zero_mul])
  rw [h2, hz] at hcur
  rw [g.conv, hcur] at hc
  simp [small, h0] at hc

/-- The same for `CompleteFCGSolver`. -/
theorem C76_terminates_complete [FiniteDimensional K W] (H : SpdProblem B W A E) (hP : PrecPositive B W E) (red : Rl) (maxit m fuel : Nat)
    (hd : Module.finrank K W ≤ m + 1) (hn : Module.finrank K W ≤ maxit) (h0 : E.lt (E.norm 0) E.tiny = true) (x b : X)
    (e : Exit X Rl) (hb : defect0 E x b ∈ W) (he : cfcgApply E red maxit m fuel x b = some e) (hx : e.exc = none) :
    e.it.converged = true := by
  by_contra hc
  have hc : e.it.converged = false := by simpa using hc
  obtain ⟨g, _, ⟨y, _, hcur⟩, hmax⟩ := (cfcg_run he).ok hx
  have hi := hmax hc
  obtain ⟨xs, bs, p, _, h2, F⟩ := C76_complete H red maxit m fuel x b e hb he hx
  have hz := C76_exact H hP (lastStored m) (fun _ => by unfold lastStored; omega) (fun _ => by unfold lastStored; omega) _ _
    (by rw [← defect0_eq H]; exact hb) _ xs bs p F (by omega) (fun k _ hk => by unfold lastStored; omega)
  rw [h2, hz] at hcur
  rw [g.conv, hcur] at hc
  simp [small, h0] at hc

/-- The documentation of `RestartedFCGSolver`: "In exact arithmetic it is exactly the same as the GeneralizedPCGSolver". With `mmax = m` it is
the same as `GeneralizedPCGSolver` with `restart = m + 1`: result, defect, record of defects and exception agree, unless the first step
already converges; then `GeneralizedPCGSolver` stops, while `RestartedFCGSolver` finishes its cycle. -/
theorem C76_same_as_gpcg (H : SpdProblem B W A E) (red : Rl) (maxit m fuel : Nat) (hm : 1 ≤ m) (h1 : 1 ≤ maxit) (x b : X) (e : Exit X Rl)
    (he : gpApply E red maxit (m + 1) (fuel + 1) x b = some e) (hne : e.it.i = 1 → e.it.converged = true → maxit = 1) :
    rfcgApply E red maxit m (fuel + 1) x b = some e :=
  same_run H hm red maxit fuel x b e h1 he hne

/-! ### The exception, and the loop that goes on after convergence -/

/-- The outcome of a run: iterations registered, last defect norm, converged, exception. -/
def outcome {X' : Type} (r : Option (Exit X' Fl)) : Option (Nat × Fl × Bool × Option Exc) :=
  r.map fun e => (e.it.i, e.it.cur, e.it.converged, e.exc)

/-- For the matrix `diag(1,1,4)`, right hand side `(1,1,1)` and the identity as preconditioner two iterations solve the system exactly. If more
are allowed and `mmax` is at least 2, the inner loop does not stop: the third iteration computes `0/0`, and both solvers throw. With
right hand side `(1,0,0)` one iteration solves the system; `GeneralizedPCGSolver` returns, `RestartedFCGSolver` throws. -/
theorem C76_abort_counterexample :
    outcome (rfcgApply diag114 (.num (1 / 10 ^ 8)) 2 10 2 (.num 0, .num 0, .num 0) (.num 1, .num 1, .num 1)) = some (2, .num 0, true, none) ∧
    outcome (rfcgApply diag114 (.num (1 / 10 ^ 8)) 3 10 3 (.num 0, .num 0, .num 0) (.num 1, .num 1, .num 1)) =
      some (2, .num 0, true, some .solverAbort) ∧
    outcome (cfcgApply diag114 (.num (1 / 10 ^ 8)) 3 10 3 (.num 0, .num 0, .num 0) (.num 1, .num 1, .num 1)) =
      some (2, .num 0, true, some .solverAbort) ∧
    outcome (gpApply diag114 (.num (1 / 10 ^ 8)) 5 11 5 (.num 0, .num 0, .num 0) (.num 1, .num 0, .num 0)) = some (1, .num 0, true, none) ∧
    outcome (rfcgApply diag114 (.num (1 / 10 ^ 8)) 5 10 5 (.num 0, .num 0, .num 0) (.num 1, .num 0, .num 0)) =
      some (1, .num 0, true, some .solverAbort) := by
  refine ⟨by decide +kernel, by decide +kernel, by decide +kernel, by decide +kernel, by decide +kernel⟩

/-! ### Runs meeting the hypotheses: `ratDiag` of C66, with a varying preconditioner, several cycles -/

example : (rfcgApply ratDiag (1 / 10 ^ 8) 4 1 4 (0, 0, 0) (1, 2, 3)).map (fun e => (e.it.i, e.it.converged, e.exc)) =
    some (4, false, none) := by
  decide +kernel

example : (cfcgApply ratDiag (1 / 10 ^ 8) 5 1 5 (0, 0, 0) (1, 2, 3)).map (fun e => (e.it.i, e.it.converged, e.exc)) =
    some (5, false, none) := by
  decide +kernel

example : (rfcgApply ratDiag (1 / 10 ^ 8) 3 2 3 (0, 0, 0) (1, 2, 3)).map (fun e => (e.it.i, e.it.converged, e.exc)) =
    some (3, true, none) := by
  decide +kernel

example : (gpApply ratDiag (1 / 10 ^ 8) 4 2 5 (0, 0, 0) (1, 2, 3)).map (fun e => (e.it.i, e.it.converged, e.exc)) =
    some (4, false, none) := by
  decide +kernel

end Solver
end Istl
