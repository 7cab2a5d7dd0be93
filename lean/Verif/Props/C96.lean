import Verif.Lemmas.CondEst3

/-!
# C96: condition estimate of CG

`cgEstimate ar E red maxit x b` is what `CGSolver::apply` stores in `res.condition_estimate`, with the eigenvalue solver `ar` (ARPACK++) and
condition estimation switched on. Exact arithmetic; `g` is the scalar product, `A` the operator, `B` the preconditioner.
-/

namespace Istl
namespace Solver
open Arpack

theorem computeSym_eig {ar : Eig} {T : SpMat Blk} (hT : T.WF) (hsq : T.n = T.m) (hs : Sound ar) {x x' : BVec} (hx : x.n ≤ T.n) {which : Which}
    {lam : ℝ} (h : computeSym ar which 1 1 T x = .ok (lam, x')) :
    x'.n = x.n ∧ (∃ f, IsEig T.n (mulVec T.n (flat 1 1 T)) lam f) ∧
      (which = .LM → ∀ mu f, IsEig T.n (mulVec T.n (flat 1 1 T)) mu f → |mu| ≤ |lam|) ∧
      (which = .SM → ∀ mu f, IsEig T.n (mulVec T.n (flat 1 1 T)) mu f → |lam| ≤ |mu|) := by
  have hm : (wrap 1 1 T).m = T.n * 1 := by rw [hsq]; rfl
  have hn : (wrap 1 1 T).n = T.n * 1 := rfl
  have h' := h
  rw [computeSym] at h'
  simp only [hm, hn, ne_eq, not_true_eq_false, if_false] at h'
  obtain ⟨r, hr, _⟩ := Res.bind_eq_ok.mp h'
  obtain ⟨lam', X, x2, e, hc, f2, f3, hl⟩ := computeSym_run hT hsq hs (x := x) hx hr
  rw [h] at hc
  injection hc with hc
  injection hc with hc1 hc2
  subst hc1; subst hc2
  obtain ⟨_, _, h3, h4⟩ := hs _ _ _ _ _ hr
  have hp := h3 0 lam X (by rw [e]; rfl) (by rw [e]; rfl)
  have hX : VecIs X (T.n * 1) (fun i => X.getD i 0) := by have := vecIs_getD X; rwa [hl] at this
  rw [← Nat.mul_one T.n]
  refine ⟨f2, ⟨_, eig_of_pair (callMv_ok hT hsq) hX hp⟩, ?_, ?_⟩
  · intro hw mu f hf
    have := h4 mu _ (pair_of_eig (callMv_ok hT hsq) hf)
    rw [hw] at this
    exact this lam (by rw [e]; simp)
  · intro hw mu f hf
    have := h4 mu _ (pair_of_eig (callMv_ok hT hsq) hf)
    rw [hw] at this
    exact this lam (by rw [e]; simp)

variable {Rl X : Type} [AddCommGroup X] [Module ℝ X] [Mul Rl] [Zero Rl]

/-- An estimate is attempted exactly by the runs that return normally after at least one iteration. -/
theorem C96_when (ar : Eig) (E : Env ℝ Rl X) (red : Rl) (maxit : Nat) (x b : X) :
    cgEstimate ar E red maxit x b ≠ none ↔
      (cgApply E red maxit x b).exc = none ∧ small E red (E.norm (defect0 E x b)) (E.norm (defect0 E x b)) = false := by
  have h := cgLoop_apply E red maxit x b
  unfold cgEstimate
  cases hl : cgLoop E red maxit x b with
  | none =>
    rw [hl] at h
    dsimp only at h ⊢
    refine ⟨fun h' => absurd rfl h', fun ⟨h1, h2⟩ => ?_⟩
    rcases h with h | ⟨_, _, h⟩
    · exact absurd h1 h
    · rw [h2] at h; cases h
  | some r =>
    obtain ⟨s, it, o⟩ := r
    rw [hl] at h
    cases o with
    | some e => dsimp only at h ⊢; refine ⟨fun h' => absurd rfl h', fun ⟨h1, _⟩ => ?_⟩; rw [h] at h1; cases h1
    | none => dsimp only at h ⊢; exact ⟨fun _ => ⟨h.1, h.2.2.2⟩, fun _ => by simp⟩

/-- **Undefined behaviour**: a run that gives up at `maxit` reads past the end of the kept numbers, whatever the operator and the preconditioner. -/
theorem C96_not_converged (ar : Eig) (E : Env ℝ Rl X) (red : Rl) (maxit : Nat) (x b : X) (hx : (cgApply E red maxit x b).exc = none)
    (hc : (cgApply E red maxit x b).it.converged = false) : cgEstimate ar E red maxit x b = some .ub := by
  have h := cgLoop_apply E red maxit x b
  unfold cgEstimate
  cases hl : cgLoop E red maxit x b with
  | none =>
    rw [hl] at h
    rcases h with h | ⟨h, _⟩
    · exact absurd hx h
    · rw [hc] at h; cases h
  | some r =>
    obtain ⟨s, it, o⟩ := r
    rw [hl] at h
    cases o with
    | some e => dsimp only at h; rw [h] at hx; cases hx
    | none =>
      dsimp only at h ⊢
      rw [h.2.1] at hc
      have hs := (cgLoop_state hl).2 hc
      obtain ⟨l1, l2⟩ := cgState_lengths E (E.pre x b).1 (defect0 E x b) (E.norm (defect0 E x b)) maxit
      rw [← hs] at l1 l2
      unfold condEstimate cgEnd
      rw [hc, if_neg (by simp), estMatrix_ub l1 l2]; rfl

/-- The numbers of a converged run fill the matrix. -/
theorem converged_matrix {E : Env ℝ Rl X} {red : Rl} {maxit : Nat} {x b : X} {s : CgSt ℝ X Rl} {it : It Rl}
    (hl : cgLoop E red maxit x b = some (s, it, none)) (hc : it.converged = true) :
    ∃ k lam be T, it.i = k + 1 ∧ s = cgAdvance E (k + 1) (cgState E (E.pre x b).1 (defect0 E x b) (E.norm (defect0 E x b)) k) ∧
      VecIs s.lambdas (k + 1) lam ∧ VecIs s.betas k be ∧ estMatrix s.lambdas s.betas (cgEnd maxit it) = .ok T ∧ T.n = k + 1 ∧ T.m = k + 1 ∧
      (∀ row, row < k + 1 → T.row row = lancRow lam be (k + 1) row) ∧ T.WF := by
  obtain ⟨k, hk, hs⟩ := (cgLoop_state hl).1 hc
  obtain ⟨l1, l2⟩ := cgState_lengths E (E.pre x b).1 (defect0 E x b) (E.norm (defect0 E x b)) k
  have h1 : s.lambdas.length = k + 1 := by
    rw [hs]
    change ((cgState E (E.pre x b).1 (defect0 E x b) (E.norm (defect0 E x b)) k).lambdas ++ [_]).length = _
    rw [List.length_append, l1]; rfl
  have h2 : s.betas.length = k := by rw [hs]; exact l2
  have hL := vecIs_getD s.lambdas
  have hB := vecIs_getD s.betas
  rw [h1] at hL
  rw [h2] at hB
  obtain ⟨T, e, t1, t2, t3⟩ := estMatrix_ok hL (show VecIs s.betas (k + 1 - 1) _ from hB)
  refine ⟨k, _, _, T, hk, hs, hL, hB, ?_, t1, t2, t3, estMatrix_wf t1 t2 t3⟩
  unfold cgEnd
  rw [if_pos hc, hk]; exact e

/-- A converged run does nothing undefined, whatever the operator and the preconditioner. -/
theorem C96_converged_safe {ar : Eig} (hs : Sound ar) (hsafe : Safe ar) (E : Env ℝ Rl X) (red : Rl) (maxit : Nat) (x b : X)
    (hc : (cgApply E red maxit x b).it.converged = true) : cgEstimate ar E red maxit x b ≠ some .ub := by
  have h := cgLoop_apply E red maxit x b
  unfold cgEstimate
  cases hl : cgLoop E red maxit x b with
  | none => simp
  | some r =>
    obtain ⟨s, it, o⟩ := r
    rw [hl] at h
    cases o with
    | some e => simp
    | none =>
      dsimp only at h ⊢
      rw [h.2.1] at hc
      obtain ⟨k, lam, be, T, _, _, _, _, e, t1, t2, _, hwf⟩ := converged_matrix hl hc
      intro hu
      injection hu with hu
      unfold condEstimate at hu
      rw [e, Res.ok_bind] at hu
      cases h1 : computeSym ar .SM 1 1 T ⟨0, fun _ _ => 0⟩ with
      | ub => exact C92_eigen_safe hwf (t1.trans t2.symm) hs hsafe (Nat.zero_le _) _ h1
      | throw e => rw [h1] at hu; cases hu
      | ok r =>
        rw [h1, Res.ok_bind] at hu
        have hn := (computeSym_eig hwf (t1.trans t2.symm) hs (Nat.zero_le _) h1).1
        cases h2 : computeSym ar .LM 1 1 T r.2 with
        | ub => exact C92_eigen_safe hwf (t1.trans t2.symm) hs hsafe (by rw [hn]; exact Nat.zero_le _) _ h2
        | throw e => rw [h2] at hu; cases hu
        | ok r' => rw [h2] at hu; cases hu

/-- The estimate and the vectors behind its two eigenvalues. -/
theorem estimate_ritz {ar : Eig} (hs : Sound ar) {E : Env ℝ Rl X} {g : LinearMap.BilinForm ℝ X} {A B : X →ₗ[ℝ] X} (h : Symmetric E g A B)
    (hA : ∀ x, x ≠ 0 → 0 < g x (A x)) (hB : ∀ x, x ≠ 0 → 0 < g (B x) x) (hz : ∀ y, E.isZero (E.norm y) = true ↔ y = 0)
    (htiny : E.lt (E.norm 0) E.tiny = true) {red : Rl} {maxit : Nat} {x b : X} {c : ℝ} (hc : cgEstimate ar E red maxit x b = some (.ok c)) :
    ∃ (lo hi : ℝ) (u v : X) (cu cv : ℝ), c = hi / lo ∧ |lo| ≤ |hi| ∧
      A (B u) = lo • u + cu • (cgApply E red maxit x b).b ∧ 0 < g (B u) u ∧ g (B u) (cgApply E red maxit x b).b = 0 ∧
      A (B v) = hi • v + cv • (cgApply E red maxit x b).b ∧ 0 < g (B v) v ∧ g (B v) (cgApply E red maxit x b).b = 0 := by
  have hap := cgLoop_apply E red maxit x b
  have hne : (cgApply E red maxit x b).exc = none := ((C96_when ar E red maxit x b).mp (by rw [hc]; simp)).1
  have hcv : (cgApply E red maxit x b).it.converged = true := by
    by_contra hf
    rw [C96_not_converged ar E red maxit x b hne (by simpa using hf)] at hc
    cases hc
  unfold cgEstimate at hc
  cases hl : cgLoop E red maxit x b with
  | none => rw [hl] at hc; cases hc
  | some r =>
    obtain ⟨s, it, o⟩ := r
    rw [hl] at hap hc
    cases o with
    | some e => cases hc
    | none =>
      dsimp only at hap hc
      have hitc : it.converged = true := by rw [← hap.2.1]; exact hcv
      obtain ⟨k, lam, be, T, hk, hst, hL, hBe, e, t1, t2, t3, hwf⟩ := converged_matrix hl hitc
      -- residuals that are not zero
      obtain ⟨-, -, h3, -⟩ := cg_run_seq E red maxit x b hne
      have hnz : ∀ j, j ≤ k → (cgState E (E.pre x b).1 (defect0 E x b) (E.norm (defect0 E x b)) j).b ≠ 0 := by
        intro j hj h0
        have := h3 hcv j (by rw [hap.2.1, hk]; omega)
        rw [h0] at this
        simp [small, htiny] at this
      have S := steps h ⟨hA, hB⟩ hz hnz
      have hlast : (cgApply E red maxit x b).b = (cgState E (E.pre x b).1 (defect0 E x b) (E.norm (defect0 E x b)) (k + 1)).b := by
        rw [hap.2.2.1, hst]; rfl
      have hlam : ∀ j, j < k + 1 → lam j = lamOf E g A (E.pre x b).1 (defect0 E x b) (E.norm (defect0 E x b)) j := by
        intro j hj
        have h1 : VecIs s.lambdas (k + 1) (lamOf E g A (E.pre x b).1 (defect0 E x b) (E.norm (defect0 E x b))) := by
          have := kept_lam h (k + 1) (x := (E.pre x b).1) (b := defect0 E x b) (d := E.norm (defect0 E x b)) (fun j hj => S.zero j (by omega))
          rw [hst]; exact this
        have a1 := h1.2 j hj
        have a2 := hL.2 j hj
        rw [a1] at a2; injection a2 with a2; exact a2.symm
      have hbe : ∀ j, j < k → be j = betOf E (E.pre x b).1 (defect0 E x b) (E.norm (defect0 E x b)) j := by
        intro j hj
        have h1 : VecIs s.betas k (betOf E (E.pre x b).1 (defect0 E x b) (E.norm (defect0 E x b))) := by
          have := kept_bet h k (x := (E.pre x b).1) (b := defect0 E x b) (d := E.norm (defect0 E x b)) (fun j hj => S.zero j hj)
          rw [hst]; exact this
        have a1 := h1.2 j hj
        have a2 := hBe.2 j hj
        rw [a1] at a2; injection a2 with a2; exact a2.symm
      have hent : ∀ i j, i < k + 1 → j < k + 1 → flat 1 1 T i j =
          lancT (lamOf E g A (E.pre x b).1 (defect0 E x b) (E.norm (defect0 E x b))) (betOf E (E.pre x b).1 (defect0 E x b) (E.norm (defect0 E x b))) i j := by
        intro i j hi hj
        rw [estMatrix_entry t3 hi hj]
        unfold lancT
        by_cases c1 : i = j
        · subst c1
          by_cases c2 : 0 < i
          · simp [c2, hlam i hi, hlam (i - 1) (by omega), hbe (i - 1) (by omega)]
          · simp [c2, hlam i hi]
        · by_cases c2 : i + 1 = j
          · subst c2
            simp [hlam i hi, hbe i (by omega), show ¬ (i = i + 1 + 1) by omega]
          · by_cases c3 : i = j + 1
            · subst c3
              simp [hlam j hj, hbe j (by omega), c2]
            · simp [c1, c2, c3]
      have heig : ∀ th f, IsEig T.n (mulVec T.n (flat 1 1 T)) th f → IsEig (k + 1) (mulVec (k + 1)
          (lancT (lamOf E g A (E.pre x b).1 (defect0 E x b) (E.norm (defect0 E x b))) (betOf E (E.pre x b).1 (defect0 E x b) (E.norm (defect0 E x b))))) th f := by
        intro th f ⟨h1, h2⟩
        rw [t1] at h1 h2
        refine ⟨h1, fun i hi => ?_⟩
        rw [← h2 i hi]
        unfold mulVec
        refine Finset.sum_congr rfl (fun j hj => ?_)
        rw [hent i j hi (Finset.mem_range.mp hj)]
      injection hc with hc
      unfold condEstimate at hc
      rw [e, Res.ok_bind] at hc
      obtain ⟨r1, e1, hc⟩ := Res.bind_eq_ok.mp hc
      obtain ⟨r2, e2, hc⟩ := Res.bind_eq_ok.mp hc
      obtain ⟨n1, ⟨f, hf⟩, _, q1⟩ := computeSym_eig hwf (t1.trans t2.symm) hs (Nat.zero_le _) e1
      obtain ⟨n2, ⟨f', hf'⟩, q2, _⟩ := computeSym_eig hwf (t1.trans t2.symm) hs (by rw [n1]; exact Nat.zero_le _) e2
      obtain ⟨u, cu, u1, u2, u3⟩ := ritz h S (heig _ _ hf)
      obtain ⟨v, cv, v1, v2, v3⟩ := ritz h S (heig _ _ hf')
      rw [← hlast] at u1 u3 v1 v3
      injection hc with hc
      exact ⟨r1.1, r2.1, u, v, cu, cv, hc.symm, q2 rfl _ _ hf, u1, u2, u3, v1, v2, v3⟩

/-- **The estimate never exceeds the condition number** of the preconditioned operator: if `m <z,B⁻¹z> ≤ <z,Az> ≤ M <z,B⁻¹z>` for all `z = B u`,
with `m > 0`, the estimate is between `1` and `M/m`. -/
theorem C96_bound {ar : Eig} (hs : Sound ar) {E : Env ℝ Rl X} {g : LinearMap.BilinForm ℝ X} {A B : X →ₗ[ℝ] X} (h : Symmetric E g A B)
    (hA : ∀ x, x ≠ 0 → 0 < g x (A x)) (hB : ∀ x, x ≠ 0 → 0 < g (B x) x) (hz : ∀ y, E.isZero (E.norm y) = true ↔ y = 0)
    (htiny : E.lt (E.norm 0) E.tiny = true) {red : Rl} {maxit : Nat} {x b : X} {c : ℝ} (hc : cgEstimate ar E red maxit x b = some (.ok c))
    {m M : ℝ} (hm : 0 < m) (hlow : ∀ u, m * g (B u) u ≤ g (B u) (A (B u))) (hupp : ∀ u, g (B u) (A (B u)) ≤ M * g (B u) u) :
    1 ≤ c ∧ c ≤ M / m := by
  obtain ⟨lo, hi, u, v, cu, cv, e, hle, u1, u2, u3, v1, v2, v3⟩ := estimate_ritz hs h hA hB hz htiny hc
  have ray : ∀ (u : X) (th cu : ℝ), A (B u) = th • u + cu • (cgApply E red maxit x b).b → g (B u) (cgApply E red maxit x b).b = 0 →
      g (B u) (A (B u)) = th * g (B u) u := by
    intro u th cu h1 h2
    rw [h1, map_add, map_smul, map_smul, h2, smul_zero, add_zero, smul_eq_mul]
  have a1 := ray u lo cu u1 u3
  have a2 := ray v hi cv v1 v3
  have b1 : m ≤ lo := by have := hlow u; rw [a1] at this; exact le_of_mul_le_mul_right this u2
  have b2 : m ≤ hi := by have := hlow v; rw [a2] at this; exact le_of_mul_le_mul_right this v2
  have b3 : hi ≤ M := by have := hupp v; rw [a2] at this; exact le_of_mul_le_mul_right this v2
  rw [abs_of_pos (by linarith), abs_of_pos (by linarith)] at hle
  have hlo : 0 < lo := by linarith
  rw [e]
  exact ⟨(one_le_div hlo).mpr hle, div_le_div₀ (by linarith) b3 hm b1⟩

/-- If the run ended with the defect zero, the estimate is the quotient of two eigenvalues of the preconditioned operator. -/
theorem C96_exact {ar : Eig} (hs : Sound ar) {E : Env ℝ Rl X} {g : LinearMap.BilinForm ℝ X} {A B : X →ₗ[ℝ] X} (h : Symmetric E g A B)
    (hA : ∀ x, x ≠ 0 → 0 < g x (A x)) (hB : ∀ x, x ≠ 0 → 0 < g (B x) x) (hz : ∀ y, E.isZero (E.norm y) = true ↔ y = 0)
    (htiny : E.lt (E.norm 0) E.tiny = true) {red : Rl} {maxit : Nat} {x b : X} {c : ℝ} (hc : cgEstimate ar E red maxit x b = some (.ok c))
    (h0 : (cgApply E red maxit x b).b = 0) :
    ∃ (lo hi : ℝ) (v w : X), v ≠ 0 ∧ w ≠ 0 ∧ B (A v) = lo • v ∧ B (A w) = hi • w ∧ 0 < lo ∧ lo ≤ hi ∧ c = hi / lo := by
  obtain ⟨lo, hi, u, v, cu, cv, e, hle, u1, u2, _, v1, v2, _⟩ := estimate_ritz hs h hA hB hz htiny hc
  rw [h0, smul_zero, add_zero] at u1 v1
  have hu : B u ≠ 0 := by intro hz; rw [hz, map_zero, LinearMap.zero_apply] at u2; exact lt_irrefl _ u2
  have hv : B v ≠ 0 := by intro hz; rw [hz, map_zero, LinearMap.zero_apply] at v2; exact lt_irrefl _ v2
  have pos : ∀ (u : X) (th : ℝ), A (B u) = th • u → B u ≠ 0 → 0 < g (B u) u → 0 < th := by
    intro u th h1 h2 h3
    have := hA _ h2
    rw [h1, map_smul, smul_eq_mul] at this
    exact (pos_iff_pos_of_mul_pos this).mpr h3
  have p1 := pos u lo u1 hu u2
  have p2 := pos v hi v1 hv v2
  rw [abs_of_pos p1, abs_of_pos p2] at hle
  exact ⟨lo, hi, B u, B v, hu, hv, by rw [u1, map_smul], by rw [v1, map_smul], p1, hle, e⟩

/-! ## Non-vacuity: `diag(1,2)` with the identity as preconditioner, two iterations, estimate `2` -/

/-- The matrix. -/
noncomputable def demoA : (ℝ × ℝ) →ₗ[ℝ] (ℝ × ℝ) where
  toFun v := (v.1, 2 * v.2)
  map_add' x y := by ext <;> simp; ring
  map_smul' a x := by ext <;> simp; ring

/-- The Euclidean scalar product. -/
noncomputable def demoG : LinearMap.BilinForm ℝ (ℝ × ℝ) :=
  LinearMap.mk₂ ℝ (fun x y => x.1 * y.1 + x.2 * y.2) (by intros; simp; ring) (by intros; simp; ring) (by intros; simp; ring)
    (by intros; simp; ring)

/-- The solver environment. -/
noncomputable def demoE : Env ℝ ℝ (ℝ × ℝ) where
  pre x b := (x, b)
  post x := x
  subOp x b := b - demoA x
  op := demoA
  prec _ y := y
  dot x y := x.1 * y.1 + x.2 * y.2
  norm y := |y.1| + |y.2|
  lt a b := decide (a < b)
  finite _ := true
  isZero a := decide (a = 0)
  abs a := |a|
  ofReal a := a
  sqrt a := Real.sqrt a
  conj a := a
  rsqrt a := Real.sqrt a
  tiny := 1 / 1000
  eps := 0
  rotEps := 0

theorem demo_sym : Symmetric demoE demoG demoA LinearMap.id where
  dot _ _ := rfl
  comm x y := by simp [demoG]; ring
  op _ := rfl
  sub _ _ := rfl
  prec _ _ := rfl
  adjA x y := by simp [demoG, demoA]; ring
  adjB _ _ := rfl

theorem demo_isZero' (y : ℝ × ℝ) : demoE.isZero (demoE.norm y) = true ↔ y = 0 := by
  obtain ⟨a, b⟩ := y
  change decide (|a| + |b| = 0) = true ↔ _
  rw [decide_eq_true_iff]
  constructor
  · intro h
    have ha := abs_nonneg a
    have hb := abs_nonneg b
    exact Prod.ext (abs_eq_zero.1 (by linarith)) (abs_eq_zero.1 (by linarith))
  · rintro h
    obtain ⟨rfl, rfl⟩ := Prod.mk.inj h
    simp

theorem demo_adv1 : cgAdvance demoE 1 (cgInit demoE (0, 0) (1, 1) 2) =
    ⟨(2 / 3, 2 / 3), (1 / 3, -(1 / 3)), (1, 1), 2, 2 / 3, [2 / 3], []⟩ := by
  simp only [cgAdvance, cgInit, demoE, demoA, LinearMap.coe_mk, AddHom.coe_mk]
  norm_num

theorem demo_aft1 : cgAfter demoE 1 ⟨(2 / 3, 2 / 3), (1 / 3, -(1 / 3)), (1, 1), 2, 2 / 3, [2 / 3], []⟩ =
    ⟨(2 / 3, 2 / 3), (1 / 3, -(1 / 3)), (4 / 9, -(2 / 9)), 2 / 9, 2 / 3, [2 / 3], [1 / 9]⟩ := by
  simp only [cgAfter, demoE]
  norm_num

theorem demo_adv2 : cgAdvance demoE 2 ⟨(2 / 3, 2 / 3), (1 / 3, -(1 / 3)), (4 / 9, -(2 / 9)), 2 / 9, 2 / 3, [2 / 3], [1 / 9]⟩ =
    ⟨(1, 1 / 2), (0, 0), (4 / 9, -(2 / 9)), 2 / 9, 0, [2 / 3, 3 / 4], [1 / 9]⟩ := by
  simp only [cgAdvance, demoE, demoA, LinearMap.coe_mk, AddHom.coe_mk]
  norm_num

theorem demo_loop : cgLoop demoE (1 / 100) 5 (0, 0) (1, 1) =
    some (⟨(1, 1 / 2), (0, 0), (4 / 9, -(2 / 9)), 2 / 9, 0, [2 / 3, 3 / 4], [1 / 9]⟩, ⟨2, 0, 2, true, [(0, 2), (1, 2 / 3), (2, 0)]⟩, none) := by
  have h0 : demoE.subOp (demoE.pre (0, 0) (1, 1)).1 (demoE.pre (0, 0) (1, 1)).2 = (1, 1) := by simp [demoE, demoA]
  have h1 : demoE.norm (1, 1) = 2 := by simp [demoE]; norm_num
  have s1 : It.start.step demoE (1 / 100) 0 2 = some ⟨2, 2, 0, false, [(0, 2)]⟩ := by simp [It.step, It.start, small, demoE]; norm_num
  have s2 : It.step demoE (1 / 100) ⟨2, 2, 0, false, [(0, 2)]⟩ 1 (2 / 3) = some ⟨2, 2 / 3, 1, false, [(0, 2), (1, 2 / 3)]⟩ := by
    simp [It.step, small, demoE]; norm_num
  have s3 : It.step demoE (1 / 100) ⟨2, 2 / 3, 1, false, [(0, 2), (1, 2 / 3)]⟩ 2 0 = some ⟨2, 0, 2, true, [(0, 2), (1, 2 / 3), (2, 0)]⟩ := by
    simp [It.step, small, demoE]
  unfold cgLoop
  dsimp only
  rw [h0, h1, s1]
  dsimp only
  rw [if_neg (by simp)]
  simp only [forIt]
  rw [show (demoE.pre (0, 0) (1, 1)).1 = ((0, 0) : ℝ × ℝ) from rfl, demo_adv1]
  dsimp only
  rw [s2]
  dsimp only
  rw [if_neg (by simp), demo_aft1, show 1 + 1 = 2 from rfl, demo_adv2]
  dsimp only
  rw [s3]
  rfl

/-- The matrix of the example. -/
noncomputable def demoT (j k : Nat) : ℝ := if j = k then 3 / 2 else 1 / 2

theorem demo_eigs {th : ℝ} {f : Nat → ℝ} (h : IsEig 2 (mulVec 2 demoT) th f) : th = 1 ∨ th = 2 := by
  obtain ⟨⟨i, hi, hne⟩, he⟩ := h
  have e0 := he 0 (by omega)
  have e1 := he 1 (by omega)
  simp only [mulVec, demoT, Finset.sum_range_succ, Finset.sum_range_zero] at e0 e1
  norm_num at e0 e1
  by_cases c : th = 1
  · exact Or.inl c
  · right
    have a : (th - 1) * (f 0 - f 1) = 0 := by linear_combination -e0 + e1
    have b : f 0 = f 1 := by rcases mul_eq_zero.mp a with a | a; exact absurd (by linarith) c; linarith
    have d : (th - 2) * f 0 = 0 := by rw [← b] at e0; linear_combination -e0
    rcases mul_eq_zero.mp d with d | d
    · linarith
    · exfalso
      have : i = 0 ∨ i = 1 := by omega
      rcases this with rfl | rfl
      · exact hne d
      · exact hne (by rw [← b]; exact d)

/-- The run of the example gives an estimate, and it is the condition number `2`. -/
example : ∃ ar, Sound ar ∧ Safe ar ∧ cgEstimate ar demoE (1 / 100) 5 (0, 0) (1, 1) = some (.ok 2) ∧
    (cgApply demoE (1 / 100) 5 (0, 0) (1, 1)).it.converged = true ∧ (cgApply demoE (1 / 100) 5 (0, 0) (1, 1)).b = 0 := by
  have hap := cgLoop_apply demoE (1 / 100) 5 (0, 0) (1, 1)
  rw [demo_loop] at hap
  obtain ⟨-, a1, a2, -⟩ := hap
  refine ⟨exact', exact_sound, exact_safe, ?_, by rw [a1], a2⟩
  unfold cgEstimate
  rw [demo_loop]
  dsimp only [cgEnd]
  have hL : VecIs [(2 / 3 : ℝ), 3 / 4] 2 (fun i => if i = 0 then 2 / 3 else 3 / 4) := ⟨rfl, fun i hi => by
    have : i = 0 ∨ i = 1 := by omega
    rcases this with rfl | rfl <;> simp [rd]⟩
  have hB : VecIs [(1 / 9 : ℝ)] (2 - 1) (fun _ => 1 / 9) := ⟨rfl, fun i hi => by
    obtain rfl : i = 0 := by omega
    simp [rd]⟩
  obtain ⟨T, e, t1, t2, t3⟩ := estMatrix_ok hL hB
  have hwf := estMatrix_wf t1 t2 t3
  have hT : ∀ i j, i < 2 → j < 2 → flat 1 1 T i j = demoT i j := by
    intro i j hi hj
    rw [estMatrix_entry t3 hi hj]
    have hs : Real.sqrt (1 / 9) = 1 / 3 := by
      rw [show (1 / 9 : ℝ) = (1 / 3) ^ 2 by norm_num]; exact Real.sqrt_sq (by norm_num)
    have : i = 0 ∨ i = 1 := by omega
    have : j = 0 ∨ j = 1 := by omega
    rcases ‹i = 0 ∨ i = 1› with rfl | rfl <;> rcases ‹j = 0 ∨ j = 1› with rfl | rfl
    all_goals (unfold lancT demoT; rw [hs]; norm_num)
  have heq : ∀ th f, IsEig T.n (mulVec T.n (flat 1 1 T)) th f ↔ IsEig 2 (mulVec 2 demoT) th f := by
    intro th f
    rw [t1]
    unfold IsEig
    refine and_congr_right fun _ => forall_congr' fun i => forall_congr' fun hi => ?_
    rw [show mulVec 2 (flat 1 1 T) f i = mulVec 2 demoT f i from Finset.sum_congr rfl (fun j hj => by rw [hT i j hi (Finset.mem_range.mp hj)])]
  have v1 : IsEig 2 (mulVec 2 demoT) 1 (fun j => if j = 0 then 1 else -1) := by
    refine ⟨⟨0, by omega, by simp⟩, fun i hi => ?_⟩
    have : i = 0 ∨ i = 1 := by omega
    rcases this with rfl | rfl <;> simp [mulVec, demoT, Finset.sum_range_succ] <;> norm_num
  have v2 : IsEig 2 (mulVec 2 demoT) 2 (fun _ => 1) := by
    refine ⟨⟨0, by omega, by simp⟩, fun i hi => ?_⟩
    have : i = 0 ∨ i = 1 := by omega
    rcases this with rfl | rfl <;> simp [mulVec, demoT, Finset.sum_range_succ] <;> norm_num
  have run : ∀ (which : Which) (th : ℝ) (f : Nat → ℝ) (x : BVec), x.n = 0 → IsEig 2 (mulVec 2 demoT) th f →
      (∀ mu, mu = 1 ∨ mu = 2 → match which with | .LM => |mu| ≤ |th| | .SM => |th| ≤ |mu| | _ => False) →
      ∃ lam x', computeSym exact' which 1 1 T x = .ok (lam, x') ∧ x'.n = 0 := by
    intro which th f x hx hf hsel
    have hf' := (heq th f).mpr hf
    have hop : Arpack.Computes (T.n * 1) (T.n * 1) (callMv 1 1 (wrap 1 1 T) (T.n * 1)) (mulVec (T.n * 1) (flat 1 1 T)) := callMv_ok hwf (t1.trans t2.symm)
    obtain ⟨r, hr⟩ := exact_ok (n := T.n * 1) (nev := 1) (op := callMv 1 1 (wrap 1 1 T) (T.n * 1)) (which := which)
      ([th], [(List.range (T.n * 1)).map f]) (by
        refine ⟨rfl, rfl, ?_, ?_⟩
        · intro k lam X h1 h2
          cases k with
          | zero => cases h1; cases h2; exact pair_of_eig hop (by rw [Nat.mul_one]; exact hf')
          | succ k => simp at h1
        · intro mu X hm
          have hX := vecIs_getD X
          rw [hm.1] at hX
          have h1 := eig_of_pair hop hX hm
          rw [Nat.mul_one] at h1
          have h2 := hsel mu (demo_eigs ((heq _ _).mp h1))
          cases which with
          | LM => intro z hz; rw [List.mem_singleton.mp hz]; exact h2
          | SM => intro z hz; rw [List.mem_singleton.mp hz]; exact h2
          | LA => exact h2.elim
          | SA => exact h2.elim
          | BE => exact h2.elim)
    obtain ⟨lam, X, x', _, hc, hn, _⟩ := computeSym_run (k := 1) hwf (t1.trans t2.symm) exact_sound (x := x) (by rw [hx]; exact Nat.zero_le _) hr
    exact ⟨lam, x', hc, hn.trans hx⟩
  obtain ⟨l1, x1, c1, n1⟩ := run .SM 1 _ ⟨0, fun _ _ => 0⟩ rfl v1 (by rintro mu (rfl | rfl) <;> norm_num)
  obtain ⟨l2, x2, c2, _⟩ := run .LM 2 _ x1 n1 v2 (by rintro mu (rfl | rfl) <;> norm_num)
  obtain ⟨_, ⟨f1, g1⟩, _, q1⟩ := computeSym_eig hwf (t1.trans t2.symm) exact_sound (Nat.zero_le _) c1
  obtain ⟨_, ⟨f2, g2⟩, q2, _⟩ := computeSym_eig hwf (t1.trans t2.symm) exact_sound (by rw [n1]; exact Nat.zero_le _) c2
  have k1 : l1 = 1 := by
    rcases demo_eigs ((heq _ _).mp g1) with h | h
    · exact h
    · have := q1 rfl 1 _ ((heq _ _).mpr v1)
      rw [h] at this; norm_num at this
  have k2 : l2 = 2 := by
    rcases demo_eigs ((heq _ _).mp g2) with h | h
    · have := q2 rfl 2 _ ((heq _ _).mpr v2)
      rw [h] at this; norm_num at this
    · exact h
  unfold condEstimate
  rw [if_pos rfl, e, Res.ok_bind, c1, Res.ok_bind, c2, Res.ok_bind, k1, k2]
  norm_num

/-- The hypotheses on the operator hold in the example, with the bounds `1` and `2`. -/
example : Symmetric demoE demoG demoA LinearMap.id ∧ (∀ x, x ≠ 0 → 0 < demoG x (demoA x)) ∧
    (∀ x, x ≠ 0 → 0 < demoG ((LinearMap.id : (ℝ × ℝ) →ₗ[ℝ] ℝ × ℝ) x) x) ∧ demoE.lt (demoE.norm 0) demoE.tiny = true ∧
    (∀ u, 1 * demoG u u ≤ demoG u (demoA u)) ∧ ∀ u, demoG u (demoA u) ≤ 2 * demoG u u := by
  have e1 : ∀ u, demoG u (demoA u) = u.1 * u.1 + 2 * (u.2 * u.2) := by intro u; simp [demoG, demoA]; ring
  have e2 : ∀ u, demoG u u = u.1 * u.1 + u.2 * u.2 := by intro u; simp [demoG]
  have hne : ∀ x : ℝ × ℝ, x ≠ 0 → 0 < x.1 * x.1 + x.2 * x.2 := by
    rintro ⟨a, b⟩ hx
    rcases eq_or_ne a 0 with rfl | ha
    · have hb : b ≠ 0 := fun hb => hx (by rw [hb]; rfl)
      have := mul_self_pos.mpr hb
      simpa using this
    · have := mul_self_pos.mpr ha
      have := mul_self_nonneg b
      dsimp only; linarith
  refine ⟨demo_sym, fun x hx => ?_, fun x hx => ?_, ?_, fun u => ?_, fun u => ?_⟩
  · rw [e1]; have := hne x hx; nlinarith [mul_self_nonneg x.2]
  · change 0 < demoG x x; rw [e2]; exact hne x hx
  · simp [demoE]
  · rw [e1, e2]; nlinarith [mul_self_nonneg u.2]
  · rw [e1, e2]; nlinarith [mul_self_nonneg u.1]

end Solver
end Istl
