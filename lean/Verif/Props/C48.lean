import Verif.Props.C32

/-!
# C48: the defect GMRes reports is the true residual norm, and it is minimal over the Krylov space

Exact real or complex arithmetic in an inner product space (`GmExact`). `strict stp` is the loop body with an additional abort if a
plane rotation leaves a remainder (an input between `0` and `1e-15`, see C32); the statements are about runs in which this does not
happen. The hypothesis `¬ ∃ k, 0 < k ∧ maxit = k * m + 1` excludes the case in which the code starts a new cycle without restarting
(dune/istl/solvers.hh:1007-1012: it skips the restart if `j == _maxit`, but then enters the loop once more).
-/

namespace Istl
namespace Solver

open Finset

variable {𝕜 X : Type} [RCLike 𝕜] [NormedAddCommGroup X] [InnerProductSpace 𝕜 X] [DecidableEq 𝕜] {E : Env 𝕜 ℝ X}

theorem gmStart_v0 (st : GmSt 𝕜 X ℝ) : (gmStart E st).v 0 = (if E.isZero st.norm = true then 0 else 1 / E.ofReal st.norm : 𝕜) • st.v 0 := by
  simp [gmStart]

theorem fgmStart_v0 (st : GmSt 𝕜 X ℝ) : (fgmStart E st).v 0 = ((1 : 𝕜) / E.ofReal st.norm) • st.v 0 := by
  simp [fgmStart]

theorem gmRestart_v0 (b : X) (st : GmSt 𝕜 X ℝ) : (gmRestart E b st).v 0 = E.prec st.calls (E.subOp st.x b) ∧
    (gmRestart E b st).norm = E.norm ((gmRestart E b st).v 0) := by
  constructor <;> simp [gmRestart]

theorem fgmRestart_v0 (st : GmSt 𝕜 X ℝ) : (fgmRestart E st).v 0 = E.subOp st.x st.b ∧
    (fgmRestart E st).norm = E.norm ((fgmRestart E st).v 0) := by
  constructor <;> simp [fgmRestart]

/-- **GMRes**: on normal return the last reported defect is the norm of the preconditioned residual `B (b - A x)` of the computed `x`
(before the preconditioner's `post`). -/
theorem C48_gmres_residual {A B : X →ₗ[𝕜] X} (hE : GmExact E A) (hB : ∀ k y, E.prec k y = B y) {red : ℝ} {maxit m fuel : Nat} {x b : X}
    {e : Exit X ℝ} (hm : 0 < m) (hst : ¬ ∃ k, 0 < k ∧ maxit = k * m + 1) (hpre : (E.pre x b).2 = b)
    (he : gmApplyWith E (strict (gmStep E)) red maxit m fuel x b = some e) (hx : e.exc = none) :
    gmApply E red maxit m fuel x b = some e ∧ ∃ x', e.x = E.post x' ∧ e.it.cur = ‖B (b - A x')‖ := by
  refine ⟨gmApplyWith_strict he hx, ?_⟩
  unfold gmApplyWith at he
  have key := gm_spec (E := E) (red := red) (maxit := maxit) (m := m) (fuel := fuel) (stp := strict (gmStep E)) (start := gmStart E)
    (restart := gmRestart E b) (x0 := (E.pre x b).1) (bA := E.subOp (E.pre x b).1 (E.pre x b).2) (b0 := (E.pre x b).1)
    (d := E.norm (E.prec 0 (E.subOp (E.pre x b).1 (E.pre x b).2))) (e := e)
    (st0 := gmInit (E.pre x b).1 (E.subOp (E.pre x b).1 (E.pre x b).2) (E.prec 0 (E.subOp (E.pre x b).1 (E.pre x b).2)) b
      (E.norm (E.prec 0 (E.subOp (E.pre x b).1 (E.pre x b).2))) 1)
    (fun st d => d = st.norm ∧ st.norm = ‖st.v 0‖ ∧ st.v 0 = B (b - A st.x))
    (fun x' _ d => d = ‖B (b - A x')‖)
    (fun i st d => i ≤ m → d = st.norm ∧ st.y = st.v ∧ Arn E (B ∘ₗ A) m (B (b - A st.x)) i st)
    (fun st d hJ hs _ => ?_) (fun i st d st' hI hs hstp him => ?_) (fun i st d hI him => ?_) (fun i st d hI h0 him => ?_)
    (fun h => absurd h hst) (fun st d h => h) hm (fun x' _ => ⟨_, rfl⟩) ?_ ?_ ⟨rfl, ?_, ?_⟩ he
  · exact (key.ok hx).2.2.1
  · obtain ⟨h1, h2, h3⟩ := hJ
    have hd := pos_of_not_small hE hs
    refine ⟨h1, rfl, ?_⟩
    have hr0 : B (b - A st.x) ≠ 0 := by
      rw [← h3]; intro h0; rw [h0, norm_zero] at h2; linarith
    have hz : E.isZero st.norm = false := by rw [← Bool.not_eq_true, hE.isZero]; linarith
    change Arn E (B ∘ₗ A) m (B (b - A st.x)) 0 _
    refine arn_start hE (f := 1 / (‖B (b - A st.x)‖ : 𝕜)) rfl hr0 ?_ ?_
    · rw [gmStart_v0, hz, if_neg (by simp), hE.scalars.ofReal, h2, h3]
    · change st.norm = _
      rw [h2, h3]
  · obtain ⟨h1, h2, h3⟩ := hI (by omega)
    have hn : 0 < st.norm := by rw [← h1]; exact pos_of_not_small hE hs
    obtain ⟨a1, a2, a3, -⟩ := gm_arn hE hB h3 h2 him hn hstp
    exact ⟨rfl, a2, by rw [a3]; exact a1⟩
  · obtain ⟨h1, h2, h3⟩ := hI him
    rw [h1, ← (h3.update hE.scalars).1]
    simp only [LinearMap.comp_apply, map_sub, map_add]
    congr 1; abel
  · obtain ⟨h1, h2, h3⟩ := hI him
    refine ⟨?_, ?_, ?_⟩
    · rw [h1, ← (h3.update hE.scalars).1]
      change _ = E.norm (E.prec _ (E.subOp _ _))
      rw [hE.norm, hB, hE.sub]
      simp only [LinearMap.comp_apply, map_sub, map_add]
      congr 1; abel
    · rw [(gmRestart_v0 b _).2, hE.norm]
    · rw [(gmRestart_v0 b _).1, hB, hE.sub]; rfl
  · rw [hE.norm, hB, hE.sub, hpre]
  · change _ = ‖B (b - A (E.pre x b).1)‖
    rw [hE.norm, hB, hE.sub, hpre]
  · simp [gmInit, hE.norm]
  · simp [gmInit, hB, hE.sub, hpre]

/-- **Flexible GMRes**: the last reported defect is the norm of the residual `b - A x`; the preconditioner may change from call to
call and need not be linear. -/
theorem C48_fgmres_residual {A : X →ₗ[𝕜] X} (hE : GmExact E A) {red : ℝ} {maxit m fuel : Nat} {x b : X}
    {e : Exit X ℝ} (hm : 0 < m) (hst : ¬ ∃ k, 0 < k ∧ maxit = k * m + 1)
    (he : fgmApplyWith E (strict (fgmStep E)) red maxit m fuel x b = some e) (hx : e.exc = none) :
    fgmApply E red maxit m fuel x b = some e ∧ ∃ x', e.x = E.post x' ∧ e.it.cur = ‖(E.pre x b).2 - A x'‖ := by
  refine ⟨fgmApplyWith_strict he hx, ?_⟩
  unfold fgmApplyWith at he
  have key := gm_spec (E := E) (red := red) (maxit := maxit) (m := m) (fuel := fuel) (stp := strict (fgmStep E))
    (start := fgmStart E) (restart := fgmRestart E) (x0 := (E.pre x b).1) (bA := (E.pre x b).2) (b0 := (E.pre x b).1)
    (d := E.norm (E.subOp (E.pre x b).1 (E.pre x b).2)) (e := e)
    (st0 := gmInit (E.pre x b).1 (E.pre x b).2 (E.subOp (E.pre x b).1 (E.pre x b).2) b
      (E.norm (E.subOp (E.pre x b).1 (E.pre x b).2)) 0)
    (fun st d => d = st.norm ∧ st.norm = ‖st.v 0‖ ∧ st.v 0 = (E.pre x b).2 - A st.x ∧ st.b = (E.pre x b).2)
    (fun x' _ d => d = ‖(E.pre x b).2 - A x'‖)
    (fun i st d => i ≤ m → d = st.norm ∧ st.b = (E.pre x b).2 ∧ Arn E A m ((E.pre x b).2 - A st.x) i st)
    (fun st d hJ hs _ => ?_) (fun i st d st' hI hs hstp him => ?_) (fun i st d hI him => ?_) (fun i st d hI h0 him => ?_)
    (fun h => absurd h hst) (fun st d h => h) hm (fun x' _ => ⟨_, rfl⟩) ?_ ?_ ⟨rfl, ?_, ?_, rfl⟩ he
  · exact (key.ok hx).2.2.1
  · obtain ⟨h1, h2, h3, h4⟩ := hJ
    have hd := pos_of_not_small hE hs
    refine ⟨h1, h4, ?_⟩
    have hr0 : (E.pre x b).2 - A st.x ≠ 0 := by
      rw [← h3]; intro h0; rw [h0, norm_zero] at h2; linarith
    change Arn E A m ((E.pre x b).2 - A st.x) 0 _
    refine arn_start hE (f := 1 / (‖(E.pre x b).2 - A st.x‖ : 𝕜)) rfl hr0 ?_ ?_
    · rw [fgmStart_v0, hE.scalars.ofReal, h2, h3]
    · change st.norm = _
      rw [h2, h3]
  · obtain ⟨h1, h2, h3⟩ := hI (by omega)
    obtain ⟨a1, a2, a3⟩ := fgm_arn hE h3 him hstp
    exact ⟨rfl, a3.trans h2, by rw [a2]; exact a1⟩
  · obtain ⟨h1, h2, h3⟩ := hI him
    rw [h1, ← (h3.update hE.scalars).1]
    simp only [map_add]
    congr 1; abel
  · obtain ⟨h1, h2, h3⟩ := hI him
    refine ⟨?_, ?_, ?_, h2⟩
    · rw [h1, ← (h3.update hE.scalars).1]
      change _ = E.norm (E.subOp _ st.b)
      rw [hE.norm, hE.sub, h2]
      simp only [map_add]
      congr 1; abel
    · rw [(fgmRestart_v0 _).2, hE.norm]
    · rw [(fgmRestart_v0 _).1, hE.sub]
      change st.b - _ = _
      rw [h2]; rfl
  · rw [hE.norm, hE.sub]
  · change _ = ‖(E.pre x b).2 - A (E.pre x b).1‖
    rw [hE.norm, hE.sub]
  · simp [gmInit, hE.norm]
  · simp [gmInit, hE.sub]

/-- The Krylov space `span {r, T r, ..., T^(k-1) r}`. -/
def Krylov (T : X →ₗ[𝕜] X) (r : X) (k : Nat) : Submodule 𝕜 X := Submodule.span 𝕜 {y | ∃ j, j < k ∧ y = (T ^ j) r}

theorem krylov_step (T : X →ₗ[𝕜] X) (r : X) (k : Nat) {y : X} (hy : y ∈ Krylov T r k) : T y ∈ Krylov T r (k + 1) := by
  induction hy using Submodule.span_induction with
  | mem y hy =>
    obtain ⟨j, hj, rfl⟩ := hy
    refine Submodule.subset_span ⟨j + 1, by omega, ?_⟩
    rw [pow_succ']; rfl
  | zero => rw [map_zero]; exact Submodule.zero_mem _
  | add y z _ _ h1 h2 => rw [map_add]; exact Submodule.add_mem _ h1 h2
  | smul c y _ h => rw [map_smul]; exact Submodule.smul_mem _ _ h

theorem krylov_mono (T : X →ₗ[𝕜] X) (r : X) {k l : Nat} (h : k ≤ l) : Krylov T r k ≤ Krylov T r l := by
  refine Submodule.span_mono ?_
  rintro y ⟨j, hj, rfl⟩
  exact ⟨j, by omega, rfl⟩

/-- The basis vectors lie in the Krylov space. -/
theorem Arn.in_krylov {T : X →ₗ[𝕜] X} {m : Nat} {r0 : X} {i : Nat} {st : GmSt 𝕜 X ℝ} (h : Arn E T m r0 i st) (hyv : st.y = st.v)
    (hr : r0 ≠ 0) : ∀ a, a ≤ i → st.v a ∈ Krylov T r0 (a + 1) := by
  intro a
  induction a using Nat.strong_induction_on with
  | _ a ih =>
    intro ha
    cases a with
    | zero =>
      have hne : (‖r0‖ : 𝕜) ≠ 0 := by rw [Ne, RCLike.ofReal_eq_zero]; exact norm_ne_zero_iff.2 hr
      have h0 : r0 ∈ Krylov T r0 1 := Submodule.subset_span ⟨0, by omega, by simp⟩
      have h1 : st.v 0 = (1 / (‖r0‖ : 𝕜)) • r0 := by
        conv_rhs => arg 2; rw [h.first]
        rw [smul_smul, one_div_mul_cancel hne, one_smul]
      rw [h1]
      exact Submodule.smul_mem _ _ h0
    | succ b =>
      obtain ⟨col, -, hne, hc, -⟩ := h.cols b (by omega)
      rw [hyv, sum_range_succ] at hc
      have h1 : st.v (b + 1) = (1 / col (b + 1)) • (T (st.v b) - ∑ k ∈ range (b + 1), col k • st.v k) := by
        rw [hc, add_sub_cancel_left, smul_smul, one_div_mul_cancel hne, one_smul]
      rw [h1]
      refine Submodule.smul_mem _ _ (Submodule.sub_mem _ (krylov_step T r0 _ (ih b (by omega) (by omega))) ?_)
      refine Submodule.sum_mem _ fun k hk => Submodule.smul_mem _ _ ?_
      have := mem_range.1 hk
      exact krylov_mono T r0 (by omega) (ih k (by omega) (by omega))

/-- The Krylov space is spanned by the basis vectors. -/
theorem Arn.krylov_le {T : X →ₗ[𝕜] X} {m : Nat} {r0 : X} {i : Nat} {st : GmSt 𝕜 X ℝ} (h : Arn E T m r0 i st) (hyv : st.y = st.v) :
    ∀ j, j ≤ i → (T ^ j) r0 ∈ Submodule.span 𝕜 {y | ∃ a, a ≤ j ∧ y = st.v a} := by
  intro j
  induction j with
  | zero =>
    intro _
    rw [pow_zero]
    change r0 ∈ _
    rw [h.first]
    exact Submodule.smul_mem _ _ (Submodule.subset_span ⟨0, le_refl _, rfl⟩)
  | succ j ih =>
    intro hj
    have hmem := ih (by omega)
    rw [pow_succ']
    change T ((T ^ j) r0) ∈ _
    generalize (T ^ j) r0 = z at hmem
    induction hmem using Submodule.span_induction with
    | mem y hy =>
      obtain ⟨a, ha, rfl⟩ := hy
      obtain ⟨col, -, -, hc, -⟩ := h.cols a (by omega)
      rw [hyv] at hc
      rw [hc]
      refine Submodule.sum_mem _ fun k hk => Submodule.smul_mem _ _ (Submodule.subset_span ⟨k, ?_, rfl⟩)
      have := mem_range.1 hk
      omega
    | zero => rw [map_zero]; exact Submodule.zero_mem _
    | add y z _ _ h1 h2 => rw [map_add]; exact Submodule.add_mem _ h1 h2
    | smul c y _ h => rw [map_smul]; exact Submodule.smul_mem _ _ h

/-- The state after `k` strict passes of a cycle that starts with residual `r0 = B (b - A x)`. -/
theorem cycle_arn {A B : X →ₗ[𝕜] X} (hE : GmExact E A) (hB : ∀ k y, E.prec k y = B y) {m : Nat} {b : X} {st0 : GmSt 𝕜 X ℝ}
    (hv : st0.v 0 = B (b - A st0.x)) (hn : st0.norm = ‖st0.v 0‖) (h0 : st0.norm ≠ 0) :
    ∀ k st, k ≤ m → (∀ j st, j < k → passes (strict (gmStep E)) j (gmResetS E m (gmStart E st0)) = some st → st.norm ≠ 0) →
      passes (strict (gmStep E)) k (gmResetS E m (gmStart E st0)) = some st →
      Arn E (B ∘ₗ A) m (B (b - A st0.x)) k st ∧ st.y = st.v ∧ st.x = st0.x := by
  intro k
  induction k with
  | zero =>
    intro st _ _ h
    obtain rfl := Option.some.inj h
    have hz : E.isZero st0.norm = false := by rw [← Bool.not_eq_true, hE.isZero]; exact h0
    refine ⟨arn_start hE (f := 1 / (‖B (b - A st0.x)‖ : 𝕜)) rfl ?_ ?_ ?_, rfl, rfl⟩
    · rw [← hv]; intro h; rw [h, norm_zero] at hn; exact h0 hn
    · rw [gmStart_v0, hz, if_neg (by simp), hE.scalars.ofReal, hn, hv]
    · change st0.norm = _
      rw [hn, hv]
  | succ k ih =>
    intro st hk hnz h
    simp only [passes, Option.bind_eq_some_iff] at h
    obtain ⟨st1, h1, h2⟩ := h
    obtain ⟨a1, a2, a3⟩ := ih st1 (by omega) (fun j st hj => hnz j st (by omega)) h1
    have hpos : 0 < st1.norm := lt_of_le_of_ne (by rw [a1.norm]; exact norm_nonneg _) (hnz k st1 (by omega) h1).symm
    obtain ⟨b1, b2, b3, -⟩ := gm_arn hE hB a1 a2 hk hpos h2
    exact ⟨b1, b2, b3.trans a3⟩

/-- **Minimality**: after `k` passes of a cycle the iterate `x + update` lies in `x + Krylov`, its preconditioned residual norm is the
reported one, and no other element of `x + Krylov` has a smaller one. -/
theorem C48_gmres_minimal {A B : X →ₗ[𝕜] X} (hE : GmExact E A) (hB : ∀ k y, E.prec k y = B y) {m : Nat} {b : X} {st0 st : GmSt 𝕜 X ℝ}
    (hv : st0.v 0 = B (b - A st0.x)) (hn : st0.norm = ‖st0.v 0‖) (h0 : st0.norm ≠ 0) (k : Nat) (hk : k ≤ m)
    (hnz : ∀ j st, j < k → passes (strict (gmStep E)) j (gmResetS E m (gmStart E st0)) = some st → st.norm ≠ 0)
    (h : passes (strict (gmStep E)) k (gmResetS E m (gmStart E st0)) = some st) :
    gmUpdate k st.H st.s st.y ∈ Krylov (B ∘ₗ A) (B (b - A st0.x)) k ∧
    ‖B (b - A (st0.x + gmUpdate k st.H st.s st.y))‖ = st.norm ∧
    ∀ v ∈ Krylov (B ∘ₗ A) (B (b - A st0.x)) k, st.norm ≤ ‖B (b - A (st0.x + v))‖ := by
  obtain ⟨a1, a2, a3⟩ := cycle_arn hE hB hv hn h0 k st hk hnz h
  have hr0 : B (b - A st0.x) ≠ 0 := by rw [← hv]; intro h; rw [h, norm_zero] at hn; exact h0 hn
  have hsub : ∀ v, B (b - A (st0.x + v)) = B (b - A st0.x) - (B ∘ₗ A) v := by
    intro v; simp only [LinearMap.comp_apply, map_sub, map_add]; abel
  obtain ⟨u1, u2⟩ := a1.update hE.scalars
  refine ⟨?_, ?_, fun v hvK => ?_⟩
  · rw [gmUpdate_eq, a2]
    refine Submodule.sum_mem _ fun a ha => Submodule.smul_mem _ _ ?_
    have := mem_range.1 ha
    exact krylov_mono _ _ (by omega) (a1.in_krylov a2 hr0 a (by omega))
  · rw [hsub]; exact u1
  · have hle : Krylov (B ∘ₗ A) (B (b - A st0.x)) k ≤ Submodule.span 𝕜 (st.v '' (range k : Set Nat)) := by
      refine Submodule.span_le.2 ?_
      rintro y ⟨j, hj, rfl⟩
      refine Submodule.span_mono ?_ (a1.krylov_le a2 j (by omega))
      rintro y ⟨a, ha, rfl⟩
      exact ⟨a, by simp; omega, rfl⟩
    obtain ⟨c, hc⟩ := (Submodule.mem_span_image_finset_iff_exists_fun' 𝕜).1 (hle hvK)
    rw [hsub, ← hc, map_sum]
    simp only [map_smul]
    rw [a2] at u2
    exact u2 c

/-! ## A concrete run, and what happens if `maxit = k * m + 1` -/

section Plane

/-- Multiplication with `a` as a real linear map of the plane. -/
noncomputable def planeMul (a : ℂ) : ℂ →ₗ[ℝ] ℂ := LinearMap.mulLeft ℝ a

theorem planeEnv_gm (a : ℂ) : GmExact (planeEnv a) (planeMul a) where
  scalars := planeEnv_exact a
  dot _ _ := rfl
  norm _ := rfl
  op _ := rfl
  sub _ _ := rfl
  isZero _ := by simp [planeEnv]
  tiny := by simp [planeEnv]
  eps := by simp [planeEnv]

/-- The rotation of two positive numbers that are not tiny. -/
theorem rotation_pos (a : ℂ) (dx dy : ℝ) (hx : 1 / 10 ^ 15 ≤ dx) (hy : 1 / 10 ^ 15 ≤ dy) :
    planeRotation (planeEnv a) (planeEnv a).conj dx dy = (dx / Real.sqrt (dx ^ 2 + dy ^ 2), dy / Real.sqrt (dx ^ 2 + dy ^ 2)) := by
  have px : 0 < dx := lt_of_lt_of_le (by positivity) hx
  have py : 0 < dy := lt_of_lt_of_le (by positivity) hy
  have nx : ‖dx‖ = dx := Real.norm_of_nonneg px.le
  have ny : ‖dy‖ = dy := Real.norm_of_nonneg py.le
  have he : (planeEnv a).rotEps = 1 / 10 ^ 15 := rfl
  have key : ∀ p q : ℝ, 0 < p → 0 < q → Real.sqrt (1 + p / q * (p / q)) = Real.sqrt (p ^ 2 + q ^ 2) / q := by
    intro p q hp hq
    rw [show 1 + p / q * (p / q) = (p ^ 2 + q ^ 2) / q ^ 2 by field_simp; ring, Real.sqrt_div (by positivity), Real.sqrt_sq hq.le]
  have hs : 0 < Real.sqrt (dx ^ 2 + dy ^ 2) := Real.sqrt_pos.2 (by positivity)
  rcases planeRotation_cases (planeEnv_exact a) (planeEnv a).conj dx dy with ⟨h, -⟩ | ⟨-, h, -⟩ | ⟨-, -, -, r, hr, h⟩ | ⟨-, -, -, r, hr, h⟩
  · rw [ny, he] at h; exact absurd hy (not_le.2 h)
  · rw [nx, he] at h; exact absurd hx (not_le.2 h)
  · rw [nx, ny, key dx dy px py] at hr
    rw [h, hr, nx, ny]
    refine Prod.ext ?_ ?_
    · change 1 / (√(dx ^ 2 + dy ^ 2) / dy) * (dx / dy) = _
      field_simp
    · change 1 / (√(dx ^ 2 + dy ^ 2) / dy) * dx * dy / dx / dy = _
      field_simp
  · rw [nx, ny, key dy dx py px, add_comm] at hr
    rw [h, hr]
    refine Prod.ext ?_ ?_
    · change 1 / (√(dx ^ 2 + dy ^ 2) / dx) = _
      field_simp
    · change 1 / (√(dx ^ 2 + dy ^ 2) / dx) * (dy / dx) = _
      field_simp

/-- One pass of the inner loop for the operator `4 + 3i`, started with `v[0] = c`, `s[0] = σ`; the norm of the orthogonalised vector is
`nu`, the projection is `4 c^2`. -/
theorem plane_pass (c σ nu : ℝ) (hc : 0 < c) (hc2 : 1 / 10 ^ 15 ≤ 4 * c ^ 2) (hnu : nu ^ 2 = (4 * c - 4 * c ^ 3) ^ 2 + (3 * c) ^ 2)
    (hnu0 : 1 / 10 ^ 15 ≤ nu) (hσ : 0 < σ) (st : GmSt ℝ ℂ ℝ) (hv : st.v 0 = (c : ℂ)) (hs0 : st.s 0 = σ) (hs1 : st.s 1 = 0)
    (hn : st.norm = σ) :
    ∃ st', gmStep (planeEnv ⟨4, 3⟩) 0 st = some st' ∧ st'.norm = σ * (nu / Real.sqrt ((4 * c ^ 2) ^ 2 + nu ^ 2)) ∧ st'.H 1 0 = 0 ∧
      st'.x = st.x ∧ st'.v 0 = st.v 0 ∧
      gmUpdate 1 st'.H st'.s st'.y = ((σ * (4 * c ^ 2) / ((4 * c ^ 2) ^ 2 + nu ^ 2) * c : ℝ) : ℂ) := by
  have pnu : 0 < nu := lt_of_lt_of_le (by positivity) hnu0
  obtain ⟨E, hE⟩ : ∃ E, E = planeEnv ⟨4, 3⟩ := ⟨_, rfl⟩
  rw [← hE]
  have hg : gramSchmidt E st.v 0 (E.prec st.calls (E.op (st.v 0))) (fun a => st.H a 0) =
      (⟨4 * c - 4 * c ^ 3, 3 * c⟩, upd (fun a => st.H a 0) 0 (4 * c ^ 2)) := by
    have hd : E.dot (c : ℂ) (E.prec st.calls (E.op (c : ℂ))) = 4 * c ^ 2 := by
      rw [hE]
      change inner ℝ (c : ℂ) (⟨4, 3⟩ * (c : ℂ)) = _
      rw [Complex.inner]; simp; ring
    simp only [gramSchmidt, forRange_succ, forRange_zero, hv, hd]
    refine Prod.ext ?_ rfl
    rw [hE]
    change (⟨4, 3⟩ * (c : ℂ) + (-(4 * c ^ 2)) • (c : ℂ) : ℂ) = _
    have hr : (-(4 * c ^ 2)) • (c : ℂ) = ((-(4 * c ^ 2) * c : ℝ) : ℂ) := by rw [Complex.real_smul, Complex.ofReal_mul]
    rw [hr]
    apply Complex.ext
    · rw [Complex.add_re, Complex.ofReal_re]; simp; ring
    · rw [Complex.add_im, Complex.ofReal_im]; simp
  have hnorm : E.norm (⟨4 * c - 4 * c ^ 3, 3 * c⟩ : ℂ) = nu := by
    rw [hE]
    change ‖(⟨4 * c - 4 * c ^ 3, 3 * c⟩ : ℂ)‖ = nu
    rw [Complex.norm_def, Complex.normSq_mk, show (4 * c - 4 * c ^ 3) * (4 * c - 4 * c ^ 3) + 3 * c * (3 * c) = nu ^ 2 by rw [hnu]; ring,
      Real.sqrt_sq pnu.le]
  have hlt : E.lt (E.abs (E.ofReal nu)) E.eps = false := by
    rw [← Bool.not_eq_true, hE, (planeEnv_exact _).lt]
    change ¬ ‖nu‖ < 1 / 10 ^ 80
    rw [Real.norm_of_nonneg pnu.le, not_lt]
    refine le_trans ?_ hnu0
    norm_num
  have hz : E.isZero st.norm = false := by
    rw [← Bool.not_eq_true, hE, (planeEnv_gm _).isZero, hn]; exact hσ.ne'
  have hrot : planeRotation E E.conj (4 * c ^ 2) nu = (4 * c ^ 2 / √((4 * c ^ 2) ^ 2 + nu ^ 2), nu / √((4 * c ^ 2) ^ 2 + nu ^ 2)) := by
    rw [hE]; exact rotation_pos _ _ _ hc2 hnu0
  have hρ : 0 < √((4 * c ^ 2) ^ 2 + nu ^ 2) := Real.sqrt_pos.2 (by positivity)
  have hρ2 : √((4 * c ^ 2) ^ 2 + nu ^ 2) ^ 2 = (4 * c ^ 2) ^ 2 + nu ^ 2 := Real.sq_sqrt (by positivity)
  generalize hρe : √((4 * c ^ 2) ^ 2 + nu ^ 2) = ρ at hrot hρ hρ2 ⊢
  have happ : ∀ x y : ℝ, applyRotation E x y (4 * c ^ 2 / ρ) (nu / ρ) = (4 * c ^ 2 / ρ * x + nu / ρ * y, -(nu / ρ) * x + 4 * c ^ 2 / ρ * y) := by
    intro x y; rw [hE]; rfl
  have hofr : E.ofReal nu = nu := by rw [hE]; rfl
  obtain ⟨v', hv'⟩ : ∃ v', v' = upd st.v 1 ((1 / nu : ℝ) • (⟨4 * c - 4 * c ^ 3, 3 * c⟩ : ℂ)) := ⟨_, rfl⟩
  have hv0 : v' 0 = c := by rw [hv', upd_ne _ _ (by omega), hv]
  have hstep : gmStep E 0 st = some (qrUpdate E 0 (upd (upd (fun a => st.H a 0) 0 (4 * c ^ 2)) 1 nu)
      { st with v := v', y := v', calls := st.calls + 1 }) := by
    unfold gmStep
    dsimp only
    rw [hg]
    dsimp only
    rw [hnorm, hlt, hz, hofr, hv']
    simp only [Bool.false_eq_true, if_false]
  refine ⟨_, hstep, ?_, ?_, rfl, ?_, ?_⟩
  · have habs : ∀ x, E.abs x = ‖x‖ := by rw [hE]; exact fun _ => rfl
    simp only [qrUpdate, rotateColumn, forRange_zero, upd, Nat.zero_add, if_true, if_neg (show ¬ (0 = 1) by omega), hrot, happ, hs0,
      hs1, habs]
    rw [mul_zero, add_zero, neg_mul, norm_neg, norm_mul, norm_div, Real.norm_of_nonneg pnu.le, Real.norm_of_nonneg hρ.le,
      Real.norm_of_nonneg hσ.le]
    ring
  · simp [qrUpdate, rotateColumn, hofr, upd, hrot, happ, setCol]
    field_simp
    ring
  · change v' 0 = _
    rw [hv0, hv]
  · rw [gmUpdate_eq]
    simp [qrUpdate, rotateColumn, upd, hrot, happ, hs0, hs1, setCol, backSubst, forDown_succ]
    rw [if_neg (by simp [hc.ne', hρ.ne', hσ.ne']), hv0]
    have key : 4 * c ^ 2 / ρ * σ / (4 * c ^ 2 / ρ * (4 * c ^ 2) + nu / ρ * nu) = σ * (4 * c ^ 2) / ((4 * c ^ 2) ^ 2 + nu ^ 2) := by
      field_simp
    have := congrArg (fun r : ℝ => (r : ℂ) * (c : ℂ)) key
    push_cast at this
    exact this

theorem plane_step (red : ℝ) (it : It ℝ) (i : Nat) (d d0 : ℝ) (hd : d0 = if i = 0 then d else it.def0) (c : Bool)
    (hc : small (planeEnv ⟨4, 3⟩) red d0 d = c) :
    it.step (planeEnv ⟨4, 3⟩) red i d = some ⟨d0, d, i, c, it.trace ++ [(i, d)]⟩ := by
  unfold It.step
  rw [if_pos (show (planeEnv ⟨4,3⟩).finite d = true from rfl)]
  dsimp only
  rw [← hd, hc]

theorem plane_small_false {red d0 d : ℝ} (h1 : d0 * red ≤ d) (h2 : 1 / 10 ^ 30 ≤ d) : small (planeEnv ⟨4, 3⟩) red d0 d = false := by
  rw [← Bool.not_eq_true, small, Bool.or_eq_true, (planeEnv_exact _).lt, (planeEnv_exact _).lt]
  rintro (h | h)
  · linarith
  · exact absurd h2 (not_le.2 h)

theorem plane_small_true {red d0 d : ℝ} (h1 : d < d0 * red) : small (planeEnv ⟨4, 3⟩) red d0 d = true := by
  rw [small, Bool.or_eq_true, (planeEnv_exact _).lt]
  exact Or.inl h1

/-- **Missing restart**: with basis size `1` and `maxit = 2` GMRes starts the second cycle without restarting. For the operator `4 + 3i`,
right hand side `1` and start vector `0` it reports convergence to half of the initial defect, while the true residual norm is larger
than after the first step (`3/5`). -/
theorem C48_missing_restart_counterexample :
    ∃ e, gmApply (planeEnv ⟨4, 3⟩) (1 / 2) 2 1 2 0 1 = some e ∧ e.exc = none ∧ e.it.i = 2 ∧ e.it.converged = true ∧
      e.it.cur < 1 / 2 ∧ 3 / 5 < ‖(1 : ℂ) - ⟨4, 3⟩ * e.x‖ := by
  obtain ⟨E, hE⟩ : ∃ E, E = planeEnv ⟨4, 3⟩ := ⟨_, rfl⟩
  have hn1 : E.norm (E.prec 0 (E.subOp (E.pre 0 1).1 (E.pre 0 1).2)) = 1 := by
    rw [hE]; change ‖(1 : ℂ) - ⟨4, 3⟩ * 0‖ = 1; simp
  have hv1 : E.prec 0 (E.subOp (E.pre 0 1).1 (E.pre 0 1).2) = 1 := by
    rw [hE]; change (1 : ℂ) - ⟨4, 3⟩ * 0 = 1; simp
  have hp : (E.pre 0 1).1 = 0 := by rw [hE]; rfl
  rw [← hE]
  unfold gmApply gmApplyWith
  dsimp only
  rw [hn1, hv1, hp]
  generalize E.subOp 0 (E.pre 0 1).2 = bb
  have s0 : It.start.step E (1 / 2) 0 1 = some ⟨1, 1, 0, false, [] ++ [(0, 1)]⟩ := by
    rw [hE]; exact plane_step _ _ _ _ _ rfl _ (plane_small_false (by norm_num) (by norm_num))
  rw [s0]
  dsimp only
  rw [if_neg (by simp)]
  -- first cycle
  obtain ⟨st1, hst1⟩ : ∃ st1, st1 = gmResetS E 1 (gmStart E (gmInit 0 bb 1 1 1 1)) := ⟨_, rfl⟩
  have hz : ∀ d, d ≠ 0 → E.isZero d = false := fun d hd => by rw [← Bool.not_eq_true, hE, (planeEnv_gm _).isZero]; exact hd
  have hof : ∀ d, E.ofReal d = d := by rw [hE]; exact fun _ => rfl
  obtain ⟨st1', p1, p2, -, p4, p5, p6⟩ := plane_pass 1 1 3 (by norm_num) (by norm_num) (by norm_num) (by norm_num) (by norm_num) st1
    (by rw [hst1]; change (gmStart E _).v 0 = _; rw [gmStart_v0]; change (if E.isZero 1 = true then (0 : ℝ) else 1 / E.ofReal 1) • (1 : ℂ) = _
        rw [hz 1 one_ne_zero, hof]; simp)
    (by rw [hst1]; exact hof 1) (by rw [hst1]; rfl) (by rw [hst1]; rfl)
  rw [← hE] at p1
  have q2 : st1'.norm = 3 / 5 := by
    rw [p2, show ((4 * (1:ℝ) ^ 2) ^ 2 + 3 ^ 2) = 5 ^ 2 by norm_num, Real.sqrt_sq (by norm_num)]; norm_num
  have q4 : st1'.x = 0 := by rw [p4, hst1]; rfl
  have q5 : st1'.v 0 = 1 := by
    rw [p5, hst1]; change (gmStart E _).v 0 = _; rw [gmStart_v0]; change (if E.isZero 1 = true then (0 : ℝ) else 1 / E.ofReal 1) • (1 : ℂ) = _
    rw [hz 1 one_ne_zero, hof]; simp
  have q6 : gmUpdate 1 st1'.H st1'.s st1'.y = ((4 / 25 : ℝ) : ℂ) := by rw [p6]; norm_num
  have s1 : ∀ tr, (It.mk 1 1 0 false tr).step E (1 / 2) 1 (3 / 5) = some ⟨1, 3 / 5, 1, false, tr ++ [(1, 3 / 5)]⟩ := by
    intro tr; rw [hE]; exact plane_step _ _ _ _ _ rfl _ (plane_small_false (by norm_num) (by norm_num))
  rw [gmOuter, if_pos (by simp)]
  dsimp only
  rw [← hst1]
  simp only [gmInner, p1, q2, s1]
  simp only [show (1 : Nat) ≤ 2 by omega, and_self, if_true, q4, q6]
  rw [if_neg (by omega)]
  -- second cycle, started with `v[0] = 1` and the norm `3/5`
  generalize hstB : ({ x := 0 + ((4 / 25 : ℝ) : ℂ), b := st1'.b, v := st1'.v, y := st1'.y, H := st1'.H, s := st1'.s, cs := st1'.cs, sn := st1'.sn, norm := st1'.norm, calls := st1'.calls } : GmSt ℝ ℂ ℝ) = stB
  have bx : stB.x = ((4 / 25 : ℝ) : ℂ) := by rw [← hstB]; exact zero_add _
  have bn : stB.norm = 3 / 5 := by rw [← hstB]; exact q2
  have bv : stB.v 0 = 1 := by rw [← hstB]; exact q5
  clear hstB q6 q5 q4 q2 p6 p5 p4 p2 p1 st1' hst1 st1
  obtain ⟨nu, hnu⟩ : ∃ nu, nu = √(120625 / 729 : ℝ) := ⟨_, rfl⟩
  have hnu2 : nu ^ 2 = 120625 / 729 := by rw [hnu]; exact Real.sq_sqrt (by norm_num)
  have hnu1 : 1 ≤ nu := by rw [hnu]; exact Real.one_le_sqrt.2 (by norm_num)
  obtain ⟨st2, hst2⟩ : ∃ st2, st2 = gmResetS E 1 (gmStart E stB) := ⟨_, rfl⟩
  obtain ⟨st2', p1, p2, -, p4, -, p6⟩ := plane_pass (5 / 3) (3 / 5) nu (by norm_num) (by norm_num) (by rw [hnu2]; norm_num)
    (le_trans (by norm_num) hnu1) (by norm_num) st2
    (by rw [hst2]; change (gmStart E _).v 0 = _; rw [gmStart_v0, bn, bv, hz _ (by norm_num), hof]
        rw [if_neg (by simp)]; norm_num)
    (by rw [hst2]; change E.ofReal (gmStart E stB).norm = _; rw [hof]; exact bn) (by rw [hst2]; rfl) (by rw [hst2]; exact bn)
  rw [← hE] at p1
  have hρ : 0 < √(210625 / 729 : ℝ) := Real.sqrt_pos.2 (by norm_num)
  have q2 : st2'.norm < 1 / 2 := by
    have h1 : nu / √(210625 / 729 : ℝ) < 5 / 6 := by
      rw [div_lt_iff₀ hρ, hnu]
      rw [show (5 / 6 : ℝ) = √((5 / 6) ^ 2) from (Real.sqrt_sq (by norm_num)).symm, ← Real.sqrt_mul (by norm_num)]
      exact Real.sqrt_lt_sqrt (by norm_num) (by norm_num)
    rw [p2, hnu2, show ((4 * (5 / 3 : ℝ) ^ 2) ^ 2 + 120625 / 729) = 210625 / 729 by norm_num]
    linarith
  have q6 : gmUpdate 1 st2'.H st2'.s st2'.y = ((324 / 8425 : ℝ) : ℂ) := by rw [p6, hnu2]; norm_num
  have q4 : st2'.x = ((4 / 25 : ℝ) : ℂ) := by rw [p4, hst2]; exact bx
  have s2 : ∀ tr, (It.mk 1 (3 / 5) 1 false tr).step E (1 / 2) 2 st2'.norm = some ⟨1, st2'.norm, 2, true, tr ++ [(2, st2'.norm)]⟩ := by
    intro tr; rw [hE]; exact plane_step _ _ _ _ _ rfl _ (plane_small_true (d0 := 1) (by linarith))
  rw [gmOuter, if_pos (by simp)]
  dsimp only
  rw [← hst2]
  simp only [gmInner, p1, s2]
  simp only [show (1 + 1 : Nat) ≤ 2 by omega, and_self, if_true, q4, q6]
  rw [if_neg (by simp)]
  simp only [gmOuter]
  rw [if_neg (by simp)]
  refine ⟨_, rfl, rfl, rfl, rfl, q2, ?_⟩
  have hx : E.post (((4 / 25 : ℝ) : ℂ) + ((324 / 8425 : ℝ) : ℂ)) = ((1672 / 8425 : ℝ) : ℂ) := by
    rw [hE, ← Complex.ofReal_add]; change ((4 / 25 + 324 / 8425 : ℝ) : ℂ) = _; norm_num
  change 3 / 5 < ‖(1 : ℂ) - ⟨4, 3⟩ * E.post (((4 / 25 : ℝ) : ℂ) + ((324 / 8425 : ℝ) : ℂ))‖
  rw [hx]
  have he : (1 : ℂ) - ⟨4, 3⟩ * ((1672 / 8425 : ℝ) : ℂ) = ⟨1 - 4 * (1672 / 8425), - (3 * (1672 / 8425))⟩ := by
    apply Complex.ext
    · simp
    · simp
  rw [he, Complex.norm_def, Complex.normSq_mk]
  rw [show (3 / 5 : ℝ) = √((3 / 5) ^ 2) from (Real.sqrt_sq (by norm_num)).symm]
  exact Real.sqrt_lt_sqrt (by norm_num) (by norm_num)

/-- The hypotheses of `C48_gmres_residual` are met: basis size `1`, one iteration, reported defect `3/5`. -/
theorem plane_run :
    ∃ e, gmApplyWith (planeEnv ⟨4, 3⟩) (strict (gmStep (planeEnv ⟨4, 3⟩))) (1 / 2) 1 1 2 0 1 = some e ∧ e.exc = none ∧ e.it.i = 1 ∧
      e.it.cur = 3 / 5 ∧ e.x = ((4 / 25 : ℝ) : ℂ) := by
  obtain ⟨E, hE⟩ : ∃ E, E = planeEnv ⟨4, 3⟩ := ⟨_, rfl⟩
  have hn1 : E.norm (E.prec 0 (E.subOp (E.pre 0 1).1 (E.pre 0 1).2)) = 1 := by
    rw [hE]; change ‖(1 : ℂ) - ⟨4, 3⟩ * 0‖ = 1; simp
  have hv1 : E.prec 0 (E.subOp (E.pre 0 1).1 (E.pre 0 1).2) = 1 := by
    rw [hE]; change (1 : ℂ) - ⟨4, 3⟩ * 0 = 1; simp
  have hp : (E.pre 0 1).1 = 0 := by rw [hE]; rfl
  rw [← hE]
  unfold gmApplyWith
  dsimp only
  rw [hn1, hv1, hp]
  generalize E.subOp 0 (E.pre 0 1).2 = bb
  have s0 : It.start.step E (1 / 2) 0 1 = some ⟨1, 1, 0, false, [] ++ [(0, 1)]⟩ := by
    rw [hE]; exact plane_step _ _ _ _ _ rfl _ (plane_small_false (by norm_num) (by norm_num))
  rw [s0]
  dsimp only
  rw [if_neg (by simp)]
  obtain ⟨st1, hst1⟩ : ∃ st1, st1 = gmResetS E 1 (gmStart E (gmInit 0 bb 1 1 1 1)) := ⟨_, rfl⟩
  have hz : ∀ d, d ≠ 0 → E.isZero d = false := fun d hd => by rw [← Bool.not_eq_true, hE, (planeEnv_gm _).isZero]; exact hd
  have hof : ∀ d, E.ofReal d = d := by rw [hE]; exact fun _ => rfl
  obtain ⟨st1', p1, p2, p3, p4, -, p6⟩ := plane_pass 1 1 3 (by norm_num) (by norm_num) (by norm_num) (by norm_num) (by norm_num) st1
    (by rw [hst1]; change (gmStart E _).v 0 = _; rw [gmStart_v0]; change (if E.isZero 1 = true then (0 : ℝ) else 1 / E.ofReal 1) • (1 : ℂ) = _
        rw [hz 1 one_ne_zero, hof]; simp)
    (by rw [hst1]; exact hof 1) (by rw [hst1]; rfl) (by rw [hst1]; rfl)
  rw [← hE] at p1
  have q1 : strict (gmStep E) 0 st1 = some st1' := by
    unfold strict; rw [p1]; dsimp only; rw [if_pos p3]
  have q2 : st1'.norm = 3 / 5 := by
    rw [p2, show ((4 * (1:ℝ) ^ 2) ^ 2 + 3 ^ 2) = 5 ^ 2 by norm_num, Real.sqrt_sq (by norm_num)]; norm_num
  have q4 : st1'.x = 0 := by rw [p4, hst1]; rfl
  have q6 : gmUpdate 1 st1'.H st1'.s st1'.y = ((4 / 25 : ℝ) : ℂ) := by rw [p6]; norm_num
  have s1 : ∀ tr, (It.mk 1 1 0 false tr).step E (1 / 2) 1 (3 / 5) = some ⟨1, 3 / 5, 1, false, tr ++ [(1, 3 / 5)]⟩ := by
    intro tr; rw [hE]; exact plane_step _ _ _ _ _ rfl _ (plane_small_false (by norm_num) (by norm_num))
  rw [gmOuter, if_pos (by simp)]
  dsimp only
  rw [← hst1]
  simp only [gmInner, q1, q2, s1]
  simp only [show (1 : Nat) ≤ 1 by omega, and_self, if_true, q4, q6]
  rw [if_neg (by omega), gmOuter, if_neg (by simp)]
  refine ⟨_, rfl, rfl, rfl, rfl, ?_⟩
  rw [hE]
  exact zero_add _

/-- Non-vacuity of `C48_gmres_residual`, and what it yields there. -/
example : ∃ e : Exit ℂ ℝ, gmApply (planeEnv ⟨4, 3⟩) (1 / 2) 1 1 2 0 1 = some e ∧ e.it.cur = 3 / 5 ∧
    ‖(1 : ℂ) - ⟨4, 3⟩ * ((4 / 25 : ℝ) : ℂ)‖ = 3 / 5 := by
  obtain ⟨e, h1, h2, -, h3, h4⟩ := plane_run
  obtain ⟨h5, x', h6, h7⟩ := C48_gmres_residual (B := LinearMap.id) (planeEnv_gm ⟨4, 3⟩) (fun _ _ => rfl) (by omega)
    (by rintro ⟨k, hk, h⟩; omega) rfl h1 h2
  refine ⟨e, h5, h3, ?_⟩
  have : x' = ((4 / 25 : ℝ) : ℂ) := by rw [← h4, h6]; rfl
  rw [← h3, h7, this]
  rfl

end Plane

end Solver
end Istl
