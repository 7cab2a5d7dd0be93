import Verif.Lemmas.Converge2

/-! # C69 — the stationary iterations converge: `LoopSolver` and `GradientSolver` for symmetric positive definite problems

In exact real arithmetic. `Converges E g A run q C` (`Spec/Converge`): every run ends normally, its defects decrease at least like `C q^k` with `q < 1`
and its errors in energy like `q^k`, uniformly in the start vector and right hand side, and every reduction is reached when enough iterations
are allowed. -/

namespace Istl
namespace Solver
open Amg Prec Gsetc

section
variable {X : Type} [AddCommGroup X] [Module ℝ X] [FiniteDimensional ℝ X] {E : Env ℝ ℝ X} {g : LinearMap.BilinForm ℝ X} {A : X →ₗ[ℝ] X}

/-- **C69.** `LoopSolver` converges if one application of the (linear) preconditioner lowers the energy of every error. -/
theorem C69_loop (h : RealSpd E g A) (P : X →ₗ[ℝ] X) (hP : ∀ k b, E.prec k b = P b)
    (hstep : ∀ e, e ≠ 0 → g (A (e - P (A e))) (e - P (A e)) < g (A e) e) :
    ∃ q C, Converges E g A (fun red maxit => loopApply (K := ℝ) E red maxit) q C := loop_converges h P hP hstep

/-- **C69.** `GradientSolver` converges for every preconditioner that is linear and positive definite; it need not be symmetric. -/
theorem C69_gradient (h : RealSpd E g A) (P : X →ₗ[ℝ] X) (hP : ∀ k b, E.prec k b = P b) (hpos : ∀ b, b ≠ 0 → 0 < g (P b) b) :
    ∃ q C, Converges E g A (fun red maxit => gradApply (K := ℝ) E red maxit) q C := grad_converges h P hP hpos

/-- **C69.** What suffices for `LoopSolver` suffices for `GradientSolver`. -/
theorem C69_both (h : RealSpd E g A) (P : X →ₗ[ℝ] X) (hP : ∀ k b, E.prec k b = P b)
    (hstep : ∀ e, e ≠ 0 → g (A (e - P (A e))) (e - P (A e)) < g (A e) e) :
    (∃ q C, Converges E g A (fun red maxit => loopApply (K := ℝ) E red maxit) q C) ∧
      ∃ q C, Converges E g A (fun red maxit => gradApply (K := ℝ) E red maxit) q C :=
  ⟨loop_converges h P hP hstep, grad_converges h P hP (pos_of_step h P hstep)⟩

end

/-! ### Block matrices -/

variable {R V : Type} [Ring R] [AddCommGroup V] [Module R V] [Module ℝ V] {D : V → V → ℝ}

/-- The solver works with real block vectors with `A.n` blocks, their scalar product and norm, and the matrix `A`. -/
structure MatEnv (D : V → V → ℝ) (act : R → V →+ V) (A : SpMat R) (E : Env ℝ ℝ (Fin A.n → V)) : Prop where
  dot : ∀ x y, E.dot x y = ∑ i, D (x i) (y i)
  norm : ∀ x, E.norm x = √(∑ i, D (x i) (x i))
  op : ∀ x i, E.op x i = A.apply act (extend x) i
  sub : ∀ x b, E.subOp x b = b - E.op x
  lt : ∀ a b, E.lt a b = true ↔ a < b
  finite : ∀ a, E.finite a = true
  isZero : ∀ a, E.isZero a = true ↔ a = 0
  tiny : 0 < E.tiny

/-- Both solvers converge. -/
def BothConverge (E : Env ℝ ℝ (Fin n → V)) (g : LinearMap.BilinForm ℝ (Fin n → V)) (A : (Fin n → V) →ₗ[ℝ] (Fin n → V)) : Prop :=
  (∃ q C, Converges E g A (fun red maxit => loopApply (K := ℝ) E red maxit) q C) ∧
    ∃ q C, Converges E g A (fun red maxit => gradApply (K := ℝ) E red maxit) q C

/-- The scalar product of block vectors. -/
noncomputable def blockForm (hD : ScalarProd D) (n : Nat) : LinearMap.BilinForm ℝ (Fin n → V) :=
  LinearMap.mk₂ ℝ (fun x y => ∑ i, D (x i) (y i)) (fun x y z => by simp [hD.add, Finset.sum_add_distrib])
    (fun c x y => by simp [hD.smul, Finset.mul_sum]) (fun x y z => by simp [hD.add', Finset.sum_add_distrib])
    (fun c x y => by simp [hD.smul', Finset.mul_sum])

theorem blockForm_apply (hD : ScalarProd D) (n : Nat) (x y : Fin n → V) : blockForm hD n x y = blockDot D n (extend x) (extend y) := by
  rw [blockDot_extend]; rfl

theorem extend_ne {n : Nat} {x : Fin n → V} (hx : x ≠ 0) : ∃ i, i < n ∧ extend x i ≠ 0 := by
  by_contra hc
  push Not at hc
  apply hx
  funext i
  have := hc i i.2
  simpa [extend] using this

section
variable {act : R → V →+ V} {A : SpMat R} {E : Env ℝ ℝ (Fin A.n → V)}

theorem blockDot_op (hact : ∀ a (c : ℝ) x, act a (c • x) = c • act a x) (x y) :
    blockDot D A.n (extend (finOp act hact A x)) y = blockDot D A.n (A.apply act (extend x)) y :=
  blockDot_congr (fun i hi => by simp [extend, hi, finOp]) (fun _ _ => rfl)

theorem matEnv_real (hE : MatEnv D act A E) (hD : ScalarProd D) (hDp : ∀ v, v ≠ 0 → 0 < D v v) (hact : ∀ a (c : ℝ) x, act a (c • x) = c • act a x)
    (hA : A.Symmetric D act) (hP : A.PosDef D act) : RealSpd E (blockForm hD A.n) (finOp act hact A) where
  dot := hE.dot
  norm := hE.norm
  op x := funext fun i => hE.op x i
  sub x b := by rw [hE.sub]; congr 1; exact funext fun i => hE.op x i
  lt := hE.lt
  finite := hE.finite
  isZero := hE.isZero
  tiny := hE.tiny
  comm x y := by simp only [blockForm, LinearMap.mk₂_apply]; exact Finset.sum_congr rfl fun i _ => hD.symm _ _
  pos x hx := by
    simp only [blockForm, LinearMap.mk₂_apply]
    have nn : ∀ v, 0 ≤ D v v := fun v => by
      by_cases hv : v = 0
      · rw [hv, hD.zero]
      · exact (hDp v hv).le
    obtain ⟨i, hi, hne⟩ := extend_ne hx
    refine Finset.sum_pos' (fun i _ => nn _) ⟨⟨i, hi⟩, Finset.mem_univ _, hDp _ ?_⟩
    simpa [extend, hi] using hne
  symm x y := by
    have hBD := blockDot_scalarProd hD A.n
    rw [blockForm_apply, blockForm_apply, blockDot_op, hA, hBD.symm (extend x), hBD.symm (extend x), blockDot_op]
  posA x hx := by
    rw [blockForm_apply, blockDot_op]
    exact hP _ (extend_ne hx)

/-- Both solvers converge with a linear preconditioner that lowers the energy of every error. -/
theorem mat_converge [FiniteDimensional ℝ V] (hE : MatEnv D act A E) (hD : ScalarProd D) (hDp : ∀ v, v ≠ 0 → 0 < D v v)
    (hact : ∀ a (c : ℝ) x, act a (c • x) = c • act a x) (hA : A.Symmetric D act) (hP : A.PosDef D act)
    (hadd : ∀ k k' b b', E.prec k (b + b') = E.prec k' b + E.prec k' b') (hsmul : ∀ k k' (c : ℝ) b, E.prec k (c • b) = c • E.prec k' b)
    (hstep : ∀ k x, x ≠ 0 → A.energy D act (extend x - extend (E.prec k (finOp act hact A x))) < A.energy D act (extend x)) : BothConverge E (blockForm hD A.n) (finOp act hact A) := by
  have h := matEnv_real hE hD hDp hact hA hP
  let P : (Fin A.n → V) →ₗ[ℝ] (Fin A.n → V) :=
    { toFun := E.prec 0, map_add' := fun x y => hadd 0 0 x y, map_smul' := fun c x => hsmul 0 0 c x }
  have hPk : ∀ k b, E.prec k b = P b := fun k b => by
    have := hsmul k 0 1 b
    rw [one_smul, one_smul] at this
    exact this
  have hsub : ∀ x y : Fin A.n → V, extend (x - y) = extend x - extend y := fun x y => by
    funext i; by_cases hi : i < A.n <;> simp [extend, hi]
  refine C69_both h P hPk fun e he => ?_
  have := hstep 0 e he
  rw [hPk, ← hsub] at this
  rw [blockForm_apply, blockForm_apply, blockDot_op, blockDot_op]
  exact this

/-- The same for a preconditioner given as a linear operator on block vectors. -/
theorem mat_converge_op [FiniteDimensional ℝ V] (hE : MatEnv D act A E) (hD : ScalarProd D) (hDp : ∀ v, v ≠ 0 → 0 < D v v)
    (hact : ∀ a (c : ℝ) x, act a (c • x) = c • act a x) (hA : A.Symmetric D act) (hP : A.PosDef D act) (M : Module.End ℝ (Nat → V))
    (hM : ∀ k b (i : Fin A.n), E.prec k b i = M (extend b) i) (hsz : ∀ b, OfSize A.n b → OfSize A.n (M b))
    (hstep : ∀ x, OfSize A.n x → x ≠ 0 → A.energy D act (x - M (levelMul act A x)) < A.energy D act x) : BothConverge E (blockForm hD A.n) (finOp act hact A) := by
  have hN : ∀ k x, extend (E.prec k x) = M (extend x) := fun k x => by
    rw [← extend_of (hsz _ (extend_size x))]
    congr 1
    exact funext fun i => hM k x i
  have hne : ∀ {x : Fin A.n → V}, x ≠ 0 → extend x ≠ 0 := fun hx h0 => by
    obtain ⟨i, -, h⟩ := extend_ne hx
    exact h (by rw [h0]; rfl)
  refine mat_converge hE hD hDp hact hA hP ?_ ?_ ?_
  · intro k k' b b'; funext i; rw [Pi.add_apply, hM, hM, hM, extend_add, map_add]; rfl
  · intro k k' c b; funext i; rw [Pi.smul_apply, hM, hM, extend_smul, map_smul]; rfl
  · intro k x hx
    rw [hN]
    have : extend (finOp act hact A x) = levelMul act A (extend x) := by
      funext i; by_cases hi : i < A.n <;> simp [extend, levelMul, hi, finOp]
    rw [this]
    exact hstep _ (extend_size x) (hne hx)

end

section
variable {A : SpMat R} {E : Env ℝ ℝ (Fin A.n → V)} [FiniteDimensional ℝ V]

/-- Each preconditioner call of the solver is a call of `apply` on the object `P`, with `v = 0`. -/
def Uses (β : BlockSolve R V V) (tr : R → R) (nid : ℝ → Bool) (P : Prec.Obj R ℝ) (E : Env ℝ ℝ (Fin A.n → V)) : Prop :=
  ∀ k b, ∃ P' y, Prec.apply β tr nid P 0 (extend b) = .ok (P', y) ∧ ∀ i : Fin A.n, E.prec k b i = y i

/-- **C69.** With `SeqSOR` (`SeqGS` is the case `w = 1`) and `SeqSSOR`, `0 < w < 2` and at least one sweep, both solvers converge for every
symmetric positive definite block matrix. -/
theorem C69_sor (hD : ScalarProd D) (hDp : ∀ v, v ≠ 0 → 0 < D v v) (β : BlockSolve R V V) (hβ : ∀ a (c : ℝ) x, β.act a (c • x) = c • β.act a x)
    (tr : R → R) (nid : ℝ → Bool) (hS : A.Sorted) (hG : A.HasDiag) (hI : A.DiagInvertible β.act) (hA : A.Symmetric D β.act) (hP : A.PosDef D β.act)
    (k : Nat) (hk : 0 < k) (w : ℝ) (h0 : 0 < w) (h2 : w < 2) (P : Prec.Obj R ℝ) (hPo : P = .sor A k w ∨ P = .ssor A k w)
    (hE : MatEnv D β.act A E) (hU : Uses β tr nid P E) : BothConverge E (blockForm hD A.n) (finOp β.act hβ A) := by
  obtain ⟨M, hM, hsz, hst⟩ : ∃ M : Module.End ℝ (Nat → V), (∀ d, Prec.apply β tr nid P 0 d = .ok (P, M d)) ∧ (∀ d, OfSize A.n (M d)) ∧
      ∀ x, OfSize A.n x → x ≠ 0 → A.energy D β.act (x - M (levelMul β.act A x)) < A.energy D β.act x := by
    rcases hPo with rfl | rfl
    · obtain ⟨S1, S2, e1, -, hs, -, hst⟩ := sor_smoother hD β hβ A hS hG hI hA hP k hk w h0 h2
      refine ⟨S1, fun d => ?_, fun d => (hs d).1, hst⟩
      have := e1 d
      dsimp only [Prec.apply]
      simp only [sorSmoother] at this
      rw [this]; rfl
    · obtain ⟨S1, S2, e1, -, hs, -, hst⟩ := ssor_smoother hD β hβ A hS hG hI hA hP k hk w h0 h2
      refine ⟨S1, fun d => ?_, fun d => (hs d).1, hst⟩
      have := e1 d
      dsimp only [Prec.apply]
      simp only [ssorSmoother] at this
      rw [this]; rfl
  refine mat_converge_op hE hD hDp hβ hA hP M ?_ (fun b _ => hsz b) hst
  intro k b i
  obtain ⟨P', y, h1, h2⟩ := hU k b
  rw [hM] at h1
  injection h1 with h1; injection h1 with _ h1
  rw [h2, h1]

/-- the preconditioner calls of the solver are linear if they are given by a relation that is -/
theorem prec_linear (Q : (Nat → V) → (Nat → V) → Prop) (hc : ∀ (c : ℝ) b y b' y', Q b y → Q b' y' → Q (b + c • b') (y + c • y'))
    (h0 : ∀ y, Q 0 y → y = 0) (hU : ∀ k b, ∃ y, Q (extend b) y ∧ ∀ i : Fin A.n, E.prec k b i = y i) :
    (∀ k k' b b', E.prec k (b + b') = E.prec k' b + E.prec k' b') ∧ ∀ k k' (c : ℝ) b, E.prec k (c • b) = c • E.prec k' b := by
  constructor
  · intro k k' b b'
    obtain ⟨y1, q1, e1⟩ := hU k (b + b')
    obtain ⟨y2, q2, e2⟩ := hU k' b
    obtain ⟨y3, q3, e3⟩ := hU k' b'
    have := hc (-1) _ _ _ _ q1 (hc 1 _ _ _ _ q2 q3)
    rw [extend_add, one_smul, one_smul, neg_one_smul, neg_one_smul, add_neg_cancel] at this
    have := h0 _ this
    funext i
    rw [Pi.add_apply, e1, e2, e3]
    have hi := congrFun this i
    rw [Pi.add_apply, Pi.neg_apply, Pi.add_apply, Pi.zero_apply, add_neg_eq_zero] at hi
    exact hi
  · intro k k' c b
    obtain ⟨y1, q1, e1⟩ := hU k (c • b)
    obtain ⟨y2, q2, e2⟩ := hU k' b
    have := hc (-c) _ _ _ _ q1 q2
    rw [extend_smul, neg_smul, neg_smul, add_neg_cancel] at this
    have := h0 _ this
    funext i
    rw [Pi.smul_apply, e1, e2]
    have hi := congrFun this i
    rw [Pi.add_apply, Pi.neg_apply, Pi.smul_apply, Pi.zero_apply, add_neg_eq_zero] at hi
    exact hi

/-- **C69.** With exact subdomain solvers that cover all rows, both solvers converge with `SeqOverlappingSchwarz`: for `0 < w < 2` in the
multiplicative and symmetric mode, in the additive mode if `w` times the number of subdomains is below 2. -/
theorem C69_schwarz (hD : ScalarProd D) (hDp : ∀ v, v ≠ 0 → 0 < D v v) {act : R → V →+ V} (hact : ∀ a (c : ℝ) x, act a (c • x) = c • act a x)
    (hA : A.Symmetric D act) (hP : A.PosDef D act) {mk : SpMat R → List Nat → Res (Ovl.Solver V)} {doms : List (List Nat)} {w : ℝ}
    {o : Ovl.Obj R ℝ V} (h : Ovl.ExactSchwarz act mk A doms w o) (hcov : Ovl.Covers A doms) (h0 : 0 < w) (mode : Ovl.Mode)
    (h2 : (mode ≠ .additive → w < 2) ∧ (mode = .additive → w * doms.length < 2)) (hE : MatEnv D act A E)
    (hU : ∀ k b, ∃ init y, Ovl.apply mk act mode o init 0 (extend b) = .ok y ∧ ∀ i : Fin A.n, E.prec k b i = y i) :
    BothConverge E (blockForm hD A.n) (finOp act hact A) := by
  obtain ⟨Q, hQ, hQc, hQ0, hQs⟩ : ∃ Q : (Nat → V) → (Nat → V) → Prop,
      (∀ init b y, Ovl.apply mk act mode o init 0 b = .ok y → Q b y) ∧
      (∀ (c : ℝ) b y b' y', Q b y → Q b' y' → Q (b + c • b') (y + c • y')) ∧ (∀ y, Q 0 y → y = 0) ∧ (∀ b y, Q b y → OfSize A.n y) := by
    have z : ∀ c : ℝ, (0 : Nat → V) = 0 + c • 0 := fun c => by simp
    have hout : ∀ {D r c}, D ∈ doms → Ovl.SolvesOn act A D r c → OfSize A.n c := fun hDm hc i hi =>
      hc.supp i fun hmem => by have := h.inside _ hDm i hmem; omega
    have hsize : ∀ (ds : List (List Nat)) (_ : ∀ D ∈ ds, D ∈ doms) b (x y : Nat → V), OfSize A.n x → Ovl.Successive act A (Ovl.SolvesOn act A) w b ds x y →
        OfSize A.n y := by
      intro ds hds b x y hx hs
      induction hs with
      | nil => exact hx
      | @cons D' ds x c y hc _ ih =>
        refine ih (fun D hD => hds D (by simp [hD])) fun i hi => ?_
        simp [hx i hi, hout (hds D' (by simp)) hc i hi]
    cases mode with
    | additive =>
      refine ⟨fun b y => Ovl.Together act A (Ovl.SolvesOn act A) w b doms 0 y, fun init b y hy => h.add hy,
        fun c b y b' y' q q' => ?_, fun y q => Ovl.together_zero hD hP h.inside q, fun b y q => ?_⟩
      · have := Ovl.together_combine hact c q q'
        rwa [← z] at this
      · obtain ⟨cs, hcs, rfl⟩ := q
        have hall : ∀ c ∈ cs, OfSize A.n c := by
          intro c hc
          obtain ⟨k, hk, rfl⟩ := List.mem_iff_getElem.1 hc
          have hk' : k < doms.length := by rw [hcs.length_eq]; exact hk
          exact hout (List.getElem_mem hk') ((List.forall₂_iff_get.1 hcs).2 k hk' hk)
        have hsum : OfSize A.n cs.sum := by
          clear hcs
          induction cs with
          | nil => intro i _; rfl
          | cons c cs ih =>
            intro i hi
            rw [List.sum_cons, Pi.add_apply, hall c (by simp) i hi, ih (fun c hc => hall c (by simp [hc])) i hi, add_zero]
        intro i hi
        simp [hsum i hi]
    | multiplicative =>
      refine ⟨fun b y => Ovl.Successive act A (Ovl.SolvesOn act A) w b doms 0 y, fun init b y hy => h.mult hy,
        fun c b y b' y' q q' => ?_, fun y q => Ovl.successive_zero hD hP h.inside q, fun b y q => hsize _ (fun _ h => h) _ _ _ (fun _ _ => rfl) q⟩
      have := Ovl.successive_combine hact c q q'
      rwa [← z] at this
    | symmetric =>
      refine ⟨fun b y => Ovl.Successive act A (Ovl.SolvesOn act A) w b (doms ++ doms.reverse) 0 y, fun init b y hy => ?_,
        fun c b y b' y' q q' => ?_, fun y q => Ovl.successive_zero hD hP (fun D hm => h.inside D (by simpa using hm)) q,
        fun b y q => hsize _ (fun D hm => by simpa using hm) _ _ _ (fun _ _ => rfl) q⟩
      · obtain ⟨z, s1, s2⟩ := h.sym hy
        exact s1.append s2
      · have := Ovl.successive_combine hact c q q'
        rwa [← z] at this
  obtain ⟨hadd, hsmul⟩ := prec_linear (E := E) Q hQc hQ0 (fun k b => by
    obtain ⟨init, y, hy, he⟩ := hU k b
    exact ⟨y, hQ init _ y hy, he⟩)
  refine mat_converge hE hD hDp hact hA hP hadd hsmul fun k x hx => ?_
  obtain ⟨init, y, hy, he⟩ := hU k (finOp act hact A x)
  have hy' : extend (E.prec k (finOp act hact A x)) = y := by
    rw [← extend_of (hQs _ _ (hQ _ _ _ hy))]
    congr 1
    exact funext fun i => he i
  rw [hy']
  have hz : ∀ i, i < A.n → A.apply act (extend x) i = extend (finOp act hact A x) i := fun i hi => by simp [extend, finOp, hi]
  have hne : ∃ i, i < A.n ∧ (0 : Nat → V) i ≠ extend x i := by
    obtain ⟨i, hi, h⟩ := extend_ne hx
    exact ⟨i, hi, fun e => h e.symm⟩
  by_cases hm : mode = .additive
  · subst hm
    have := Ovl.C58_additive_lowers_energy hD hact h hcov hA hP h0 (h2.2 rfl) init 0 _ y _ hz hne hy
    rwa [sub_zero] at this
  · have := Ovl.C58_lowers_energy hD hact h hcov hA hP h0 (h2.1 hm) mode hm init 0 _ y _ hz hne hy
    rwa [sub_zero] at this

/-- **C69.** With AMG as preconditioner (hypotheses of C61) both solvers converge: the V- or W-cycle iterated by `LoopSolver` is a convergent
multigrid method, for every symmetric positive definite block matrix and every dependency criterion. -/
theorem C69_amg (hD : ScalarProd D) (hDp : ∀ v, v ≠ 0 → 0 < D v v) (act : R →+ V →+ V)
    (hact : ∀ a (c : ℝ) x, act a (c • x) = c • act a x) (dep : Bool → SpMat R → Amg.Props) (c : Amg.Crit) (h : HierCrit) (fuel : Nat) (junk : R)
    (hc : c.minSize ≤ c.maxSize) (hW : A.WF) (hsq : A.n = A.m) (hsym : ∀ i j, A.Has i j → A.Has j i) (hf : A.n + 1 ≤ fuel)
    (hA : A.Symmetric D (fun b => act b)) (hP : A.PosDef D (fun b => act b)) :
    ∃ s, MH.build dep c h fuel junk A = some (.ok s) ∧
      ∀ (sm : Smoother R V) (cs : (Nat → V) → (Nat → V) → (Nat → V) × (Nat → V) × Bool) (damp : ℝ) (steps gamma : Nat),
        (∀ l, SpdSmoother D (fun b => act b) (s.level l) sm) → ExactSolver (fun b => act b) (s.level (s.mats.length - 1)) cs →
        0 ≤ damp → damp ≤ 1 → 0 < steps → MatEnv D (fun b => act b) A E →
        (∀ k b, ∃ st v st' z, State.Sized st (amgOf (fun b => act b) sm s cs damp steps gamma) ∧ st.conv = true ∧
          amgApply (amgOf (fun b => act b) sm s cs damp steps gamma) v (extend b) st = .ok z st' ∧ ∀ i : Fin A.n, E.prec k b i = z i) →
        BothConverge E (blockForm hD A.n) (finOp (fun b => act b) hact A) := by
  obtain ⟨s, e, H, hall⟩ := C61_preconditioner hD act hact dep c h fuel junk hc A hW hsq hsym hf hA hP
  refine ⟨s, e, ?_⟩
  intro sm cs damp steps gamma hsm hcs hd0 hd1 hst hE hU
  obtain ⟨M, HM, run⟩ := hall sm cs damp steps gamma hsm hcs hd0 hd1 hst
  refine mat_converge_op hE hD hDp hact hA hP M ?_ HM.size ?_
  · intro k b i
    obtain ⟨st, v, st', z, h1, h2, h3, h4⟩ := hU k b
    obtain ⟨st'', q, _⟩ := run st v (extend b) h1 h2
    rw [q] at h3
    rw [h4, ← (Out.ok.inj h3).1]
  · intro x hx hne
    have := HM.step x 0 hx (fun _ _ => rfl) hne
    have z : levelMul (fun b => act b) A (0 : Nat → V) = 0 := by
      funext i; simp [levelMul, SpMat.apply, SpMat.partSum]
    rwa [z, sub_zero, zero_add, sub_zero] at this

omit [FiniteDimensional ℝ V] in
theorem jac_functional (hD : ScalarProd D) (β : BlockSolve R V V) (hβ : ∀ a (c : ℝ) x, β.act a (c • x) = c • β.act a x)
    (hS : A.Sorted) (hG : A.HasDiag) (hA : A.Symmetric D β.act) (w : ℝ) (h0 : 0 < w)
    (hJ : ∀ (x : Nat → V) (d : Nat → R), (∀ i, i < A.n → (A.row i).Stores i (d i)) → (∃ i, i < A.n ∧ x i ≠ 0) →
      w * A.energy D β.act x < 2 * ∑ i ∈ Finset.range A.n, D (β.act (d i) (x i)) (x i))
    (b x x' : Nat → V) (h : dbjac β.act (solveLoc β) w A b x = .ok x') :
    A.functional D β.act b x' ≤ A.functional D β.act b x ∧
      ((∃ i, i < A.n ∧ A.apply β.act x i ≠ b i) → A.functional D β.act b x' < A.functional D β.act b x) := by
  classical
  have hBD := blockDot_scalarProd hD A.n
  obtain ⟨c, rfl⟩ : ∃ c, x' = x + c := ⟨x' - x, by abel⟩
  have hd' : ∀ i, ∃ d, i < A.n → (A.row i).Stores i d := fun i => by
    by_cases hi : i < A.n
    · obtain ⟨d, hd⟩ := hG i hi; exact ⟨d, fun _ => hd⟩
    · exact ⟨0, fun h => absurd h hi⟩
  choose d hd using hd'
  have hc : ∀ i, i < A.n → β.act (d i) (c i) = w • (b i - A.apply β.act x i) := fun i hi => by
    have := C25_dbjac β w (fun a x => hβ a w x) A hS hG b x _ h i hi (d i) (hd i hi)
    rwa [Pi.add_apply, add_sub_cancel_left] at this
  have e3 : blockDot D A.n (A.apply β.act c) x = blockDot D A.n (A.apply β.act x) c := by rw [hA, hBD.symm]
  have ediff : A.functional D β.act b (x + c) =
      A.functional D β.act b x - 2 * blockDot D A.n (b - A.apply β.act x) c + A.energy D β.act c := by
    unfold SpMat.functional SpMat.energy
    rw [apply_add]
    simp only [hBD.add, hBD.add', hBD.sub]
    rw [e3]; ring
  have ediag : w * blockDot D A.n (b - A.apply β.act x) c = ∑ i ∈ Finset.range A.n, D (β.act (d i) (c i)) (c i) := by
    unfold blockDot
    rw [Finset.mul_sum]
    refine Finset.sum_congr rfl fun i hi => ?_
    rw [hc i (Finset.mem_range.1 hi), hD.smul]
    rfl
  by_cases hz : ∃ i, i < A.n ∧ c i ≠ 0
  · have := hJ c d hd hz
    rw [← ediag] at this
    have h3 : A.energy D β.act c < 2 * blockDot D A.n (b - A.apply β.act x) c := by nlinarith
    rw [ediff]
    exact ⟨by linarith, fun _ => by linarith⟩
  · push Not at hz
    have hr : ∀ i, i < A.n → A.apply β.act x i = b i := fun i hi => by
      have := hc i hi
      rw [hz i hi, map_zero, eq_comm, smul_eq_zero] at this
      rcases this with h | h
      · exact absurd h h0.ne'
      · exact (sub_eq_zero.1 h).symm
    refine ⟨?_, fun ⟨i, hi, hne⟩ => absurd (hr i hi) hne⟩
    rw [ediff]
    have z1 : blockDot D A.n (b - A.apply β.act x) c = 0 := by
      rw [blockDot_congr (x' := 0) (y' := c) (fun i hi => by simp [hr i hi]) (fun _ _ => rfl), hBD.zero]
    have z2 : A.energy D β.act c = 0 := by
      unfold SpMat.energy
      rw [hBD.symm, blockDot_congr (x' := 0) (fun i hi => hz i hi) (fun _ _ => rfl), hBD.zero]
    rw [z1, z2]; simp

/-- **C69.** With `SeqJac` and at least one step both solvers converge if `2 D - w A` is positive definite, where `D` is the block diagonal of `A`. -/
theorem C69_jacobi (hD : ScalarProd D) (hDp : ∀ v, v ≠ 0 → 0 < D v v) (β : BlockSolve R V V) (hβ : ∀ a (c : ℝ) x, β.act a (c • x) = c • β.act a x)
    (tr : R → R) (nid : ℝ → Bool) (hS : A.Sorted) (hG : A.HasDiag) (hI : A.DiagInvertible β.act) (hA : A.Symmetric D β.act) (hP : A.PosDef D β.act)
    (k : Nat) (hk : 0 < k) (w : ℝ) (h0 : 0 < w)
    (hJ : ∀ (x : Nat → V) (d : Nat → R), (∀ i, i < A.n → (A.row i).Stores i (d i)) → (∃ i, i < A.n ∧ x i ≠ 0) →
      w * A.energy D β.act x < 2 * ∑ i ∈ Finset.range A.n, D (β.act (d i) (x i)) (x i))
    (hE : MatEnv D β.act A E) (hU : Uses β tr nid (.jac A k w) E) : BothConverge E (blockForm hD A.n) (finOp β.act hβ A) := by
  obtain ⟨F, G, J, -, -, hJJ, hz, hadj⟩ := sweep_ops β hβ A hS hG hI w
  obtain ⟨S1, S2, e1, -, hs, -, hst⟩ := smoother_of_steps hD β.act hβ A hA hP _ _ J J hJJ hJJ
    (fun d i hi => ⟨(hz d i hi).2.2, (hz d i hi).2.2⟩) (hadj D hD hA).2
    (fun b x x' h => jac_functional hD β hβ hS hG hA w h0 hJ b x x' h) k hk
    (fun A _ v d => iterate k (dbjac β.act (solveLoc β) w A d) v) (fun v d => rfl) (fun v d => rfl)
  refine mat_converge_op hE hD hDp hβ hA hP S1 ?_ (fun b _ => (hs b).1) hst
  intro j b i
  obtain ⟨P', y, h1, h2⟩ := hU j b
  dsimp only [Prec.apply] at h1
  have := e1 (extend b)
  dsimp only at this
  rw [this] at h1
  injection h1 with h1; injection h1 with _ h1
  rw [h2, h1]

end

/-! ### When the condition fails -/

/-- **C69.** If the error of the start vector is an eigenvector of the iteration with a factor `1 - m` of modulus at least one, `LoopSolver` never
converges: for every number of iterations and every reduction up to 1 it returns normally after `maxit` steps and reports no convergence
(provided the initial defect is not already below `1e-30`). -/
theorem C69_diverges {X : Type} [AddCommGroup X] [Module ℝ X] {E : Env ℝ ℝ X} {g : LinearMap.BilinForm ℝ X} {A : X →ₗ[ℝ] X} (h : RealSpd E g A)
    (P : X →ₗ[ℝ] X) (hP : ∀ k b, E.prec k b = P b) (e : X) (m : ℝ) (he : P (A e) = m • e) (hm : 1 ≤ |1 - m|) (hn : E.tiny ≤ E.norm (A e))
    (red : ℝ) (hr : red ≤ 1) (maxit : Nat) (x b : X) (hx : (E.pre x b).2 - A (E.pre x b).1 = A e) :
    (loopApply (K := ℝ) E red maxit x b).exc = none ∧ ((loopApply (K := ℝ) E red maxit x b).it.finalize E red).converged = false ∧
      ((loopApply (K := ℝ) E red maxit x b).it.finalize E red).iterations = maxit := by
  have hd0 : defect0 E x b = A e := by rw [← hx, ← h.sub]; rfl
  have hs : ∀ k, (loopSeq E (E.pre x b).1 (defect0 E x b) k).2 = A ((1 - m) ^ k • e) := by
    intro k
    induction k with
    | zero => rw [pow_zero, one_smul, ← hd0]; rfl
    | succ k ih =>
      change E.subOp (E.prec (k + 1) _) _ = _
      rw [h.sub, hP, ih, map_smul, map_smul, map_smul, he, map_smul, map_smul, smul_smul, ← sub_smul]
      congr 1; ring
  have hnorm : ∀ (c : ℝ), E.norm (A (c • e)) = |c| * E.norm (A e) := fun c => by
    rw [h.norm, h.norm, map_smul]
    simp only [map_smul, LinearMap.smul_apply, smul_eq_mul]
    rw [← mul_assoc, Real.sqrt_mul (mul_self_nonneg c), Real.sqrt_mul_self_eq_abs]
  have hpos : 0 < E.norm (A e) := lt_of_lt_of_le h.tiny hn
  have hbig : ∀ k, E.norm (A e) ≤ E.norm (loopSeq E (E.pre x b).1 (defect0 E x b) k).2 := fun k => by
    rw [hs, hnorm, abs_pow]
    exact le_mul_of_one_le_left hpos.le (one_le_pow₀ hm)
  have hsm : ∀ k, small E red (E.norm (loopSeq E (E.pre x b).1 (defect0 E x b) 0).2) (E.norm (loopSeq E (E.pre x b).1 (defect0 E x b) k).2) = false := by
    intro k
    have := hbig k
    have e0 : E.norm (loopSeq E (E.pre x b).1 (defect0 E x b) 0).2 = E.norm (A e) := by rw [← hd0]; rfl
    unfold small
    rw [e0, Bool.or_eq_false_iff]
    constructor
    · rw [← Bool.not_eq_true, h.lt]; nlinarith
    · rw [← Bool.not_eq_true, h.lt]; linarith
  obtain ⟨h1, -, h3, h4, -, -, -, h8, -, h10⟩ := loop_full h red maxit x b
  refine ⟨h1, ?_, h10 (by rw [h8]; exact hsm _)⟩
  change small E red (loopApply (K := ℝ) E red maxit x b).it.def0 (loopApply (K := ℝ) E red maxit x b).it.cur = false
  rw [h3, h4]
  exact hsm _

/-! ### The hypotheses hold, and the Jacobi method can diverge although the matrix is symmetric positive definite -/

section demo

/-- Arithmetic of real numbers as 1x1 blocks. -/
noncomputable def realSolve : BlockSolve ℝ ℝ ℝ where
  act a := AddMonoidHom.mulLeft a
  solve a y := if a = 0 then none else some (y / a)
  solve_iff a y x := by
    by_cases ha : a = 0
    · subst ha
      simp only [if_true]
      constructor
      · intro h; cases h
      · rintro ⟨⟨hi, -⟩, -⟩
        exact absurd (hi (show AddMonoidHom.mulLeft (0 : ℝ) 1 = AddMonoidHom.mulLeft 0 0 by simp)) one_ne_zero
    · simp only [ha, if_false, Option.some.injEq, AddMonoidHom.coe_mulLeft]
      refine ⟨fun h => ⟨⟨fun u v h => mul_left_cancel₀ ha h, fun y => ⟨y / a, by field_simp⟩⟩, by rw [← h]; field_simp⟩, fun h => ?_⟩
      rw [← h.2]; field_simp

/-- the 3x3 matrix with 1 on the diagonal and 9/10 elsewhere -/
noncomputable def demoFull : SpMat ℝ :=
  { n := 3, m := 3, row := fun i => match i with
    | 0 => [(0, 1), (1, 9 / 10), (2, 9 / 10)] | 1 => [(0, 9 / 10), (1, 1), (2, 9 / 10)] | 2 => [(0, 9 / 10), (1, 9 / 10), (2, 1)] | _ => [] }

noncomputable def realForm : ℝ → ℝ → ℝ := fun x y => x * y

theorem realForm_ok : ScalarProd realForm := ⟨fun x y => mul_comm x y, fun x y z => add_mul x y z, fun c x z => by simp [realForm, mul_assoc]⟩

theorem realForm_pos (v : ℝ) (hv : v ≠ 0) : 0 < realForm v v := mul_self_pos.2 hv

theorem realSolve_smul (a c x : ℝ) : realSolve.act a (c • x) = c • realSolve.act a x := by
  simp only [realSolve, AddMonoidHom.coe_mulLeft, smul_eq_mul]; ring

theorem demoFull_energy (x : Nat → ℝ) : demoFull.energy realForm realSolve.act x =
    1 / 10 * (x 0 ^ 2 + x 1 ^ 2 + x 2 ^ 2) + 9 / 10 * (x 0 + x 1 + x 2) ^ 2 := by
  simp [SpMat.energy, blockDot, demoFull, Finset.sum_range_succ, SpMat.apply, SpMat.partSum, realForm, realSolve]
  ring

theorem demoFull_pos (x : Nat → ℝ) (hx : ∃ i, i < demoFull.n ∧ x i ≠ 0) : 0 < x 0 ^ 2 + x 1 ^ 2 + x 2 ^ 2 := by
  obtain ⟨i, hi, hne⟩ := hx
  have hi : i < 3 := hi
  have := sq_nonneg (x 0); have := sq_nonneg (x 1); have := sq_nonneg (x 2)
  interval_cases i
  · have := pow_pos (abs_pos.2 hne) 2; rw [sq_abs] at this; linarith
  · have := pow_pos (abs_pos.2 hne) 2; rw [sq_abs] at this; linarith
  · have := pow_pos (abs_pos.2 hne) 2; rw [sq_abs] at this; linarith

theorem demoFull_ok : demoFull.Sorted ∧ demoFull.HasDiag ∧ demoFull.DiagInvertible realSolve.act ∧ demoFull.Symmetric realForm realSolve.act ∧
    demoFull.PosDef realForm realSolve.act := by
  refine ⟨?_, ?_, ?_, ?_, ?_⟩
  · intro i hi
    have hi : i < 3 := hi
    interval_cases i <;> simp [demoFull, Row.Asc]
  · intro i hi
    have hi : i < 3 := hi
    interval_cases i <;> exact ⟨1, by simp [demoFull, Row.Stores]⟩
  · intro i hi a ha
    have hi : i < 3 := hi
    have : a = 1 := by
      interval_cases i <;> simpa [demoFull, Row.Stores] using ha
    subst this
    exact ⟨fun x y h => by simpa [realSolve] using h, fun y => ⟨y, by simp [realSolve]⟩⟩
  · intro x y
    simp [blockDot, demoFull, Finset.sum_range_succ, SpMat.apply, SpMat.partSum, realForm, realSolve]
    ring
  · intro x hx
    have := demoFull_energy x
    unfold SpMat.energy at this
    rw [this]
    have := demoFull_pos x hx
    have := sq_nonneg (x 0 + x 1 + x 2)
    linarith

/-- the setting of a solver for the matrix `A` with the preconditioner object `P` -/
noncomputable def demoEnvOf (A : SpMat ℝ) (P : Prec.Obj ℝ ℝ) : Env ℝ ℝ (Fin A.n → ℝ) :=
  { pre := fun x b => (x, b), post := id, subOp := fun x b => b - (fun i : Fin A.n => A.apply realSolve.act (extend x) i : Fin A.n → ℝ),
    op := fun x i => A.apply realSolve.act (extend x) i
    prec := fun _ b i => match Prec.apply realSolve id (fun _ => false) P 0 (extend b) with | .ok r => r.2 i | _ => 0
    dot := fun x y => ∑ i, realForm (x i) (y i), norm := fun x => √(∑ i, realForm (x i) (x i)), lt := fun a b => decide (a < b)
    finite := fun _ => true, isZero := fun a => decide (a = 0), abs := fun a => |a|, ofReal := id, sqrt := Real.sqrt, conj := id, rsqrt := Real.sqrt
    tiny := 1 / 10 ^ 30, eps := 1 / 10 ^ 80, rotEps := 1 / 10 ^ 15 }

theorem demoEnvOf_ok (A : SpMat ℝ) (P : Prec.Obj ℝ ℝ) : MatEnv realForm realSolve.act A (demoEnvOf A P) where
  dot _ _ := rfl
  norm _ := rfl
  op _ _ := rfl
  sub _ _ := rfl
  lt a b := by simp [demoEnvOf]
  finite _ := rfl
  isZero a := by simp [demoEnvOf]
  tiny := by simp only [demoEnvOf]; positivity

theorem demoEnvOf_uses (A : SpMat ℝ) (P : Prec.Obj ℝ ℝ) (h : ∀ d, ∃ r, Prec.apply realSolve id (fun _ => false) P 0 d = .ok r) :
    Uses realSolve id (fun _ => false) P (demoEnvOf A P) := by
  intro k b
  obtain ⟨r, hr⟩ := h (extend b)
  exact ⟨r.1, r.2, hr, fun i => by simp only [demoEnvOf, hr]⟩

/-- SOR with relaxation factor 3/2, two sweeps -/
example : BothConverge (demoEnvOf demoFull (.sor demoFull 2 (3 / 2))) (blockForm realForm_ok 3) (finOp realSolve.act realSolve_smul demoFull) := by
  obtain ⟨h1, h2, h3, h4, h5⟩ := demoFull_ok
  refine C69_sor realForm_ok realForm_pos realSolve realSolve_smul id (fun _ => false) h1 h2 h3 h4 h5 2 (by norm_num) (3 / 2) (by norm_num) (by norm_num)
    _ (.inl rfl) (demoEnvOf_ok _ _) (demoEnvOf_uses _ _ fun d => ?_)
  obtain ⟨S1, S2, e1, -⟩ := sor_smoother realForm_ok realSolve realSolve_smul demoFull h1 h2 h3 h4 h5 2 (by norm_num) (3 / 2 : ℝ) (by norm_num) (by norm_num)
  have := e1 d
  simp only [sorSmoother] at this
  exact ⟨(.sor demoFull 2 (3 / 2), S1 d), by dsimp only [Prec.apply]; rw [this]; rfl⟩

theorem demo_jac (w : ℝ) (d : Nat → ℝ) : ∃ y, Prec.apply realSolve id (fun _ => false) (.jac demoFull 1 w) 0 d = .ok (.jac demoFull 1 w, y) ∧
    ∀ i < 3, y i = w * d i := by
  obtain ⟨h1, h2, h3, h4, h5⟩ := demoFull_ok
  obtain ⟨F, G, J, -, -, hJJ, -, -⟩ := sweep_ops realSolve realSolve_smul demoFull h1 h2 h3 w
  have hr := hJJ d 0
  refine ⟨0 + J (cut demoFull.n d - matOp realSolve.act realSolve_smul demoFull 0), ?_, ?_⟩
  · dsimp only [Prec.apply, iterate]
    rw [forRangeM_succ, forRangeM_zero, Res.ok_bind, hr]; rfl
  · intro i hi
    have hst : (demoFull.row i).Stores i 1 := by interval_cases i <;> simp [demoFull, Row.Stores]
    have := C25_dbjac realSolve w (fun a x => realSolve_smul a w x) demoFull h1 h2 d 0 _ hr i hi 1 hst
    simpa [realSolve, SpMat.apply, SpMat.partSum] using this

/-- damped Jacobi: `2 D - w A` is positive definite for `w = 1/2` -/
example : BothConverge (demoEnvOf demoFull (.jac demoFull 1 (1 / 2))) (blockForm realForm_ok 3) (finOp realSolve.act realSolve_smul demoFull) := by
  obtain ⟨h1, h2, h3, h4, h5⟩ := demoFull_ok
  refine C69_jacobi realForm_ok realForm_pos realSolve realSolve_smul id (fun _ => false) h1 h2 h3 h4 h5 1 (by norm_num) (1 / 2) (by norm_num) ?_
    (demoEnvOf_ok _ _) (demoEnvOf_uses _ _ fun d => ?_)
  · intro x d hd hx
    have hd1 : ∀ i, i < 3 → d i = 1 := fun i hi => by
      have := hd i hi
      interval_cases i <;> simpa [demoFull, Row.Stores] using this
    rw [demoFull_energy, show demoFull.n = 3 from rfl]
    simp only [Finset.sum_range_succ, Finset.sum_range_zero, hd1 0 (by norm_num), hd1 1 (by norm_num), hd1 2 (by norm_num), realForm, realSolve,
      AddMonoidHom.coe_mulLeft]
    have := demoFull_pos x hx
    nlinarith [sq_nonneg (x 0 - x 1), sq_nonneg (x 0 - x 2), sq_nonneg (x 1 - x 2)]
  · obtain ⟨y, hy, -⟩ := demo_jac (1 / 2) d
    exact ⟨_, hy⟩

/-- **C69, counterexample.** Undamped Jacobi as preconditioner of `LoopSolver` diverges for this symmetric positive definite matrix with 1 on the
diagonal and 9/10 elsewhere: with right hand side (28/10, 28/10, 28/10) and start vector 0 no number of iterations reaches any reduction up to 1. -/
theorem C69_jacobi_diverges (red : ℝ) (hr : red ≤ 1) (maxit : Nat) :
    ((loopApply (K := ℝ) (demoEnvOf demoFull (.jac demoFull 1 1)) red maxit 0 (fun _ => 28 / 10)).it.finalize
      (demoEnvOf demoFull (.jac demoFull 1 1)) red).converged = false := by
  obtain ⟨h1, h2, h3, h4, h5⟩ := demoFull_ok
  have hS := matEnv_real (demoEnvOf_ok demoFull (.jac demoFull 1 1)) realForm_ok realForm_pos realSolve_smul h4 h5
  have hA : ∀ i, finOp realSolve.act realSolve_smul demoFull (fun _ => (1 : ℝ)) i = 28 / 10 := by
    intro i
    have hi : (i : Nat) < 3 := i.2
    simp only [finOp, LinearMap.coe_mk, AddHom.coe_mk]
    obtain ⟨i, hi'⟩ := i
    dsimp only at hi ⊢
    interval_cases i <;> simp [SpMat.apply, SpMat.partSum, demoFull, realSolve, extend] <;> norm_num
  refine (C69_diverges hS LinearMap.id ?_ (fun _ => 1) (28 / 10) ?_ ?_ ?_ red hr maxit _ _ ?_).2.1
  · intro k b
    funext i
    obtain ⟨y, hy, he⟩ := demo_jac 1 (extend b)
    simp only [demoEnvOf, hy, LinearMap.id_apply]
    rw [he i i.2, one_mul]
    simp [extend]
  · funext i
    rw [LinearMap.id_apply, hA]; simp
  · rw [abs_of_neg] <;> norm_num
  · show (1 / 10 ^ 30 : ℝ) ≤ √(∑ i, realForm _ _)
    simp only [hA, realForm]
    have : (Finset.univ : Finset (Fin demoFull.n)).card = 3 := Finset.card_fin 3
    rw [Finset.sum_const, this, nsmul_eq_mul]
    apply Real.le_sqrt_of_sq_le
    norm_num
  · show (fun _ => (28 / 10 : ℝ)) - finOp realSolve.act realSolve_smul demoFull 0 = _
    rw [map_zero, sub_zero]
    funext i
    rw [hA]

end demo

end Solver
end Istl
