import Verif.Lemmas.KAmg3
import Verif.Props.C61

/-! # C67 — KAMG: multigrid with Krylov cycles -/

namespace Istl
namespace Amg
open Solver

section run
variable {K Rl V : Type} [AddCommGroup V] [SMul K V] [Zero K] [One K] [Neg K] [Mul K] [Div K] [Zero Rl] [Mul Rl] [Div Rl]

/-- What a `KAMG` object contains after `pre` has been called, once or again and again. -/
inductive Prepared (S : Setup K V) : List TG → Prop
  | first {ks : List TG} (h : kpre S [] = .ok ks) : Prepared S ks
  | again {ks ks' : List TG} (h : Prepared S ks) (h' : kpre S ks = .ok ks') : Prepared S ks'

omit [AddCommGroup V] [SMul K V] [Zero K] [One K] [Neg K] [Mul K] [Div K] in
theorem prepared_chain [Zero V] [Add V] [Sub V] [SMul K V] [Zero K] [One K] [Neg K] [Mul K] [Div K] {S : Setup K V} {ks : List TG}
    (h : ∃ ks0, kpre S ks0 = .ok ks) (hc : 0 < S.coarsest) : ∃ ks', ks = chain (S.coarsest - 1) 0 :: ks' := by
  obtain ⟨ks0, h⟩ := h
  unfold kpre at h
  rw [if_neg (by omega)] at h
  obtain ⟨ks', e⟩ := kpreLoop_chain S.coarsest (S.coarsest - 1) 0 ks0 (by omega)
  rw [Nat.zero_add] at e
  have h : kpreLoop (S.coarsest - 1) (chain 0 (S.coarsest - 1) :: ks0) = .ok ks := h
  rw [e] at h
  exact ⟨ks', (Res.ok.inj h).symm⟩

/-- **C67.** `pre` never fails, however often it is called. -/
theorem C67_pre (S : Setup K V) (ks : List TG) : ∃ ks', kpre S ks = .ok ks' := by
  by_cases h : S.coarsest = 0
  · exact ⟨ks, by unfold kpre; rw [if_pos h]⟩
  · obtain ⟨ks', e⟩ := kpre_chain S ks (by omega)
    exact ⟨_, e⟩

/-- **C67.** After `pre`, in arithmetic in which no norm overflows, every `apply(v,d)` with `v = 0` returns the Krylov cycle for `d`: the recursion
over the levels in which each coarse problem but the coarsest is solved by the Krylov method preconditioned by the cycle of the next level. The
vectors of the hierarchy are shared by all levels and all calls; what they contain before does not matter, and with more than one level neither does `v`. -/
theorem C67_apply (S : Setup K V) (Q : KParms K Rl V) (hA : ∀ l x y, S.mat l (x + y) = S.mat l x + S.mat l y)
    (hf : ∀ l d, (Q.env l).finite d = true) (hr : 2 ≤ Q.restart) (ks : List TG) (hk : Prepared S ks) (st : State V) (hs : st.Sized S) (v d : V)
    (hv : v = 0 ∨ 0 < S.coarsest) :
    ∃ st', kapply S Q ks v d st = .ok (kmg S Q S.coarsest 0 d) st' ∧ st'.Sized S ∧ st'.conv = st.conv := by
  by_cases hc : S.coarsest = 0
  · have e : ks = [] := by
      induction hk with
      | first h =>
        unfold kpre at h
        rw [if_pos hc] at h
        exact (Res.ok.inj h).symm
      | again _ h' ih =>
        unfold kpre at h'
        rw [if_pos hc] at h'
        rw [← Res.ok.inj h', ih]
    have hv : v = 0 := hv.resolve_right (by omega)
    rw [e, hv, hc]
    exact ⟨st, rfl, hs, rfl⟩
  · have hc' : 0 < S.coarsest := by omega
    obtain ⟨ks', e⟩ := prepared_chain (S := S) (ks := ks) (by cases hk with
      | first h => exact ⟨_, h⟩
      | again _ h => exact ⟨_, h⟩) hc'
    obtain ⟨f, g, h, es⟩ := state_mk S st hs
    have hc0 : curAt S.coarsest 0 = fineCursor := by simp [curAt, fineCursor]
    have e0 : ({ st with cur := fineCursor } : State V) = mkS S.coarsest (curAt S.coarsest 0) f g h st.conv := by
      rw [hc0]
      conv_lhs => rw [es]
      rfl
    obtain ⟨st', ⟨f', g', h', e1, _⟩, e2⟩ := TG.apply_rets S Q hA hf hr (S.coarsest - 1) 0 (by omega) f g h st.conv v d _
      ⟨f, g, h, rfl, fun _ _ => ⟨rfl, rfl, rfl⟩⟩
    rw [show S.coarsest - 1 + 1 = S.coarsest by omega] at e2
    refine ⟨st', ?_, by rw [e1]; exact mkS_sized S _ _ _ _ _, by rw [e1]; rfl⟩
    rw [e]
    unfold kapply
    dsimp only
    rw [Cmd.bind_ok (Cmd.modify_apply _ _), e0, e2]

omit [Div Rl] in
/-- **C67** (finding). The result does not depend on whether the coarse solver converged: if it reports failure in every call, `apply` returns the
same as if it reported success (`AMG::apply` throws, C46). -/
theorem C67_failure_ignored (S : Setup K V) (Q : KParms K Rl V) (ks : List TG) (v d : V) (st : State V) :
    kapply { S with solve := fun x b => ((S.solve x b).1, (S.solve x b).2.1, false) } Q ks v d st = kapply S Q ks v d st := by
  have h : ∀ (t : TG) (v d : V), TG.apply { S with solve := fun x b => ((S.solve x b).1, (S.solve x b).2.1, false) } Q t v d = TG.apply S Q t v d := by
    intro t
    induction t with
    | onCoarse => intro v d; rfl
    | onKrylov l t ih =>
      intro v d
      unfold TG.apply
      simp only [ih]
      rfl
  cases ks with
  | nil => rfl
  | cons t ks => unfold kapply; dsimp only; rw [h]

end run

section energy
variable {K Rl V : Type} [Field K] [LinearOrder K] [IsStrictOrderedRing K] [AddCommGroup V] [Module K V] [Zero Rl] [Mul Rl] [Div Rl]
variable {D : Nat → V → V → K} {S : Setup K V} {Q : KParms K Rl V} {W : Nat → Submodule K V} {A : Nat → Module.End K V}

theorem kmg_all (H : KHierarchy D S Q W A) (hf : ∀ l d, (Q.env l).finite d = true) (hr : 2 ≤ Q.restart) (hm : Q.maxit ≤ Q.restart)
    (hp : 0 < S.preSteps) (b : V) (hb : b ∈ W 0) :
    kmg S Q S.coarsest 0 b ∈ W 0 ∧ (b ≠ 0 → quad (D 0) (A 0) b (kmg S Q S.coarsest 0 b) < 0) := by
  by_cases hc : S.coarsest = 0
  · rw [hc]
    have := H.coarse b (by rw [hc]; exact hb)
    rw [hc] at this
    refine ⟨this.1, fun hne => ?_⟩
    show quad (D 0) (A 0) b (S.solve 0 b).1 < 0
    have hz : (S.solve 0 b).1 ≠ 0 := by
      intro h0
      rw [h0, map_zero] at this
      exact hne this.2.symm
    have h := H.pos 0 _ this.1 hz
    unfold quad
    rw [this.2] at h ⊢
    linarith
  · obtain ⟨d, hd⟩ : ∃ d, S.coarsest = d + 1 := ⟨S.coarsest - 1, by omega⟩
    have := kmg_quad H hf hr hm d 0 (by omega) b hb
    rw [hd]
    exact ⟨this.1, this.2.2 hp⟩

/-- **C67.** On a hierarchy for a symmetric positive definite problem, with at least one pre-smoothing step, at most `restart` Krylov steps per level
(three by default, `restart` is ten) and a damping factor between 0 and 2 (1.6 by default): each `apply` for a right hand side `b ≠ 0` returns a
vector `z` with `z^T A z < 2 b^T z`. In particular `b^T z > 0`, and `z` is closer than `0` to the solution in the energy norm. -/
theorem C67_energy (H : KHierarchy D S Q W A) (hf : ∀ l d, (Q.env l).finite d = true) (hr : 2 ≤ Q.restart) (hm : Q.maxit ≤ Q.restart)
    (hp : 0 < S.preSteps) (ks : List TG) (hk : Prepared S ks) (st st' : State V) (hs : st.Sized S) (v b z : V) (hv : v = 0 ∨ 0 < S.coarsest)
    (hb : b ∈ W 0) (hne : b ≠ 0) (he : kapply S Q ks v b st = .ok z st') :
    z ∈ W 0 ∧ D 0 (A 0 z) z < 2 * D 0 b z ∧ 0 < D 0 b z ∧
      ∀ x, A 0 x = b → D 0 (A 0 (x - z)) (x - z) < D 0 (A 0 x) x := by
  have hadd : ∀ l x y, S.mat l (x + y) = S.mat l x + S.mat l y := fun l x y => by rw [H.mat, H.mat, H.mat, map_add]
  obtain ⟨st'', q, _⟩ := C67_apply S Q hadd hf hr ks hk st hs v b hv
  rw [q] at he
  obtain rfl := (Out.ok.inj he).1
  obtain ⟨h1, h2⟩ := kmg_all H hf hr hm hp b hb
  have h2 := h2 hne
  set z := kmg S Q S.coarsest 0 b with hz
  have h3 : D 0 (A 0 z) z < 2 * D 0 b z := by unfold quad at h2; linarith
  have h0 : 0 ≤ D 0 (A 0 z) z := by
    by_cases e : z = 0
    · rw [e, map_zero, (H.prod 0).zero]
    · exact (H.pos 0 z h1 e).le
  refine ⟨h1, h3, by linarith, ?_⟩
  intro x hx
  have e : D 0 (A 0 z) x = D 0 b z := by rw [H.symm, hx, (H.prod 0).symm]
  rw [map_sub, (H.prod 0).sub, (H.prod 0).sub', (H.prod 0).sub', e, hx]
  linarith

/-- **C67.** One level: `apply` is the coarse solver. -/
theorem C67_one_level (hc : S.coarsest = 0) (ks : List TG) (hk : Prepared S ks) (v b : V) (st : State V) :
    kapply S Q ks v b st = .ok (S.solve v b).1 st := by
  have e : ks = [] := by
    induction hk with
    | first h =>
      unfold kpre at h
      rw [if_pos hc] at h
      exact (Res.ok.inj h).symm
    | again _ h' ih =>
      unfold kpre at h'
      rw [if_pos hc] at h'
      rw [← Res.ok.inj h', ih]
  rw [e]
  rfl

end energy

section solve
variable {R K Rl V : Type} [Ring R] [Field K] [LinearOrder K] [IsStrictOrderedRing K] [AddCommGroup V] [Module R V] [Module K V]
variable [Zero Rl] [Mul Rl] [Div Rl] {F : V → V → K}

/-- The Krylov methods of the levels work with the matrices of the hierarchy and the scalar products of block vectors of the respective lengths. -/
structure KLevels (F : V → V → K) (act : R → V →+ V) (s : MH R) (Q : KParms K Rl (Nat → V)) : Prop where
  dot : ∀ l x y, (Q.env l).dot x y = blockDot F (s.level l).n x y
  op : ∀ l x, (Q.env l).op x = levelMul act (s.level l) x
  sub : ∀ l x b, (Q.env l).subOp x b = b - levelMul act (s.level l) x
  finite : ∀ l d, (Q.env l).finite d = true

/-- **C67.** For every block matrix that is symmetric and positive definite (with a symmetric sparsity pattern), every dependency criterion,
every aggregation and coarsening parameters, every smoother that is good on each level, every number of smoothing steps but zero, every damping
factor between 0 and 2, and every number of Krylov steps up to `restart`: building the hierarchy and `pre` succeed, and with an exact coarse solver
every `apply`, whatever the vectors contain from before, succeeds with the same `z = M d`, a vector with `z^T A z < 2 d^T z` unless `d = 0`. -/
theorem C67_preconditioner [FiniteDimensional K V] (hD : ScalarProd F) (act : R →+ V →+ V)
    (hact : ∀ a (c : K) x, act a (c • x) = c • act a x) (dep : Bool → SpMat R → Props) (c : Crit) (h : HierCrit) (fuel : Nat) (junk : R)
    (hc : c.minSize ≤ c.maxSize) (A : SpMat R) (hW : A.WF) (hsq : A.n = A.m) (hsym : ∀ i j, A.Has i j → A.Has j i) (hf : A.n + 1 ≤ fuel)
    (hA : A.Symmetric F (fun b => act b)) (hP : A.PosDef F (fun b => act b)) :
    ∃ s, MH.build dep c h fuel junk A = some (.ok s) ∧ IsHierarchy A s ∧
      ∀ (sm : Smoother R V) (cs : (Nat → V) → (Nat → V) → (Nat → V) × (Nat → V) × Bool) (damp : K) (steps gamma : Nat) (Q : KParms K Rl (Nat → V)),
        (∀ l, SpdSmoother F (fun b => act b) (s.level l) sm) → ExactSolver (fun b => act b) (s.level (s.mats.length - 1)) cs →
        0 ≤ damp → damp ≤ 2 → 0 < steps → KLevels F (fun b => act b) s Q → 2 ≤ Q.restart → Q.maxit ≤ Q.restart →
        ∃ M : (Nat → V) → (Nat → V), (∀ d, OfSize A.n d → OfSize A.n (M d)) ∧
          (∀ d, OfSize A.n d → d ≠ 0 → A.energy F (fun b => act b) (M d) < 2 * blockDot F A.n d (M d)) ∧
          ∀ ks, Prepared (amgOf (fun b => act b) sm s cs damp steps gamma) ks →
            ∀ (st : State (Nat → V)) (d : Nat → V), st.Sized (amgOf (fun b => act b) sm s cs damp steps gamma) →
              ∃ st', kapply (amgOf (fun b => act b) sm s cs damp steps gamma) Q ks 0 d st = .ok (M d) st' ∧
                st'.Sized (amgOf (fun b => act b) sm s cs damp steps gamma) := by
  obtain ⟨s, e, H, _⟩ := C59_build dep c h fuel junk hc A hW hsq hsym hf
  refine ⟨s, e, H, ?_⟩
  intro sm cs damp steps gamma Q hsm hcs hd0 hd2 hst HQ hr hm
  obtain ⟨W, A', HK, hW0, hA0⟩ := amg_khier hD act hact H hA hP sm hsm cs hcs damp ⟨hd0, hd2⟩ steps gamma Q HQ.dot HQ.op HQ.sub
  set S := amgOf (fun b => act b) sm s cs damp steps gamma with hS
  have hadd : ∀ l x y, S.mat l (x + y) = S.mat l x + S.mat l y := fun l x y => by rw [HK.mat, HK.mat, HK.mat, map_add]
  have hn : (s.level 0).n = A.n := by rw [level_zero H]
  refine ⟨kmg S Q S.coarsest 0, ?_, ?_, ?_⟩
  · intro d hd
    exact (hW0 _).1 (kmg_all HK HQ.finite hr hm hst d ((hW0 d).2 hd)).1
  · intro d hd hne
    have := (kmg_all HK HQ.finite hr hm hst d ((hW0 d).2 hd)).2 hne
    unfold quad at this
    rw [hn] at this
    have em : ∀ y z, blockDot F A.n (A' 0 y) z = blockDot F A.n (A.apply (fun b => act b) y) z := fun y z =>
      blockDot_congr (fun i hi => by rw [hA0]; simp [levelMul, hi]) (fun _ _ => rfl)
    rw [em] at this
    show blockDot F A.n (A.apply _ _) _ < _
    linarith
  · intro ks hk st d hs
    obtain ⟨st', q1, q2, _⟩ := C67_apply S Q hadd HQ.finite hr ks hk st hs 0 d (Or.inl rfl)
    exact ⟨st', q1, q2⟩

/-- block vectors with `n` blocks -/
def sizedEquiv (K : Type) [Field K] [Module K V] (n : Nat) : sized (V := V) K n ≃ₗ[K] (Fin n → V) where
  toFun x i := x.1 i
  map_add' _ _ := rfl
  map_smul' _ _ := rfl
  invFun y := ⟨extend y, extend_size y⟩
  left_inv x := Subtype.ext (extend_of x.2)
  right_inv y := funext fun i => by simp [extend]

/-- The setting in which `GeneralizedPCGSolver` runs with KAMG as preconditioner: `pre` leaves the vectors alone, operator and scalar product are
those of the matrix, and each preconditioner call is a call of `apply` on a prepared `KAMG` object. -/
structure KamgEnv (F : V → V → K) (act : R → V →+ V) (A : SpMat R) (S : Setup K (Nat → V)) (Q : KParms K Rl (Nat → V))
    (E : Env K Rl (Nat → V)) : Prop where
  pre : ∀ x b, E.pre x b = (x, b)
  dot : ∀ x y, E.dot x y = blockDot F A.n x y
  op : ∀ x, E.op x = levelMul act A x
  sub : ∀ x b, E.subOp x b = b - levelMul act A x
  prec : ∀ k b, ∃ ks st st', Prepared S ks ∧ State.Sized st S ∧ kapply S Q ks 0 b st = .ok (E.prec k b) st'

/-- **C67.** The generalised conjugate gradient method preconditioned by KAMG solves the system exactly: in exact arithmetic, under the hypotheses
above and without restart (`maxit ≤ restart`), for every start vector and right hand side every run of the solver returns converged if the number of
iterations allowed is at least the number of unknowns. -/
theorem C67_gpcg [FiniteDimensional K V] (hD : ScalarProd F) (act : R →+ V →+ V)
    (hact : ∀ a (c : K) x, act a (c • x) = c • act a x) (dep : Bool → SpMat R → Props) (c : Crit) (h : HierCrit) (fuel : Nat) (junk : R)
    (hc : c.minSize ≤ c.maxSize) (A : SpMat R) (hW : A.WF) (hsq : A.n = A.m) (hsym : ∀ i j, A.Has i j → A.Has j i) (hf : A.n + 1 ≤ fuel)
    (hA : A.Symmetric F (fun b => act b)) (hP : A.PosDef F (fun b => act b)) :
    ∃ s, MH.build dep c h fuel junk A = some (.ok s) ∧ IsHierarchy A s ∧
      ∀ (sm : Smoother R V) (cs : (Nat → V) → (Nat → V) → (Nat → V) × (Nat → V) × Bool) (damp : K) (steps gamma : Nat) (Q : KParms K Rl (Nat → V)),
        (∀ l, SpdSmoother F (fun b => act b) (s.level l) sm) → ExactSolver (fun b => act b) (s.level (s.mats.length - 1)) cs →
        0 ≤ damp → damp ≤ 2 → 0 < steps → KLevels F (fun b => act b) s Q → 2 ≤ Q.restart → Q.maxit ≤ Q.restart →
        ∀ E : Env K Rl (Nat → V), KamgEnv F (fun b => act b) A (amgOf (fun b => act b) sm s cs damp steps gamma) Q E →
        (∀ d, E.finite d = true) → E.lt (E.norm 0) E.tiny = true →
        ∀ (red : Rl) (maxit restart : Nat) (x b : Nat → V), OfSize A.n b → 2 ≤ restart → maxit ≤ restart → A.n * Module.finrank K V ≤ maxit →
          ∃ e, gpApply E red maxit restart maxit x b = some e ∧ e.exc = none ∧ e.it.converged = true ∧ e.it.i ≤ max 1 maxit := by
  obtain ⟨s, e, H, hall⟩ := C67_preconditioner (Rl := Rl) hD act hact dep c h fuel junk hc A hW hsq hsym hf hA hP
  refine ⟨s, e, H, ?_⟩
  intro sm cs damp steps gamma Q hsm hcs hd0 hd2 hst HQ hr hm E HE hfin htiny red maxit restart x b hb hr' hm' hn
  obtain ⟨M, hM1, hM2, run⟩ := hall sm cs damp steps gamma Q hsm hcs hd0 hd2 hst HQ hr hm
  have hprec : ∀ k b, E.prec k b = M b := by
    intro k b
    obtain ⟨ks, st, st', h1, h2, h3⟩ := HE.prec k b
    obtain ⟨st'', q, _⟩ := run ks h1 st b h2
    rw [q] at h3
    exact (Out.ok.inj h3).1.symm
  have hBD := blockDot_scalarProd hD A.n
  have hT : ∀ x y, blockDot F A.n (levelMul (fun b => act b) A x) y = blockDot F A.n (A.apply (fun b => act b) x) y := fun x y =>
    blockDot_congr (fun i hi => by simp [levelMul, hi]) (fun _ _ => rfl)
  have em : ∀ x, levelMul (fun b => act b) A x = matOp (K := K) (fun b => act b) hact A x := fun x => rfl
  have hsz : ∀ x, OfSize A.n (levelMul (fun b => act b) A x) := fun x i hi => by simp [levelMul, show ¬ i < A.n by omega]
  have HP : SpdProblem (blockDot F A.n) (sized K A.n) (matOp (fun b => act b) hact A) E :=
    { prod := hBD
      dot := HE.dot
      op := HE.op
      sub := HE.sub
      symm := matOp_symm (fun b => act b) hact A hA
      mem := fun x _ => hsz x
      pos := fun x hx hne => by
        rw [← em, hT]
        apply hP
        by_contra hcon
        push Not at hcon
        apply hne
        funext i
        by_cases hi : i < A.n
        · exact hcon i hi
        · exact hx i (by omega)
      prec := fun k b hb => by rw [hprec]; exact hM1 b hb }
  have HPP : PrecPositive (blockDot F A.n) (sized K A.n) E := by
    intro k b hb hne
    rw [hprec, hBD.symm]
    have h1 := hM2 b hb hne
    have h0 : 0 ≤ A.energy F (fun b => act b) (M b) := by
      by_cases h0 : M b = 0
      · show 0 ≤ blockDot F A.n (A.apply _ (M b)) (M b)
        rw [h0, hBD.symm, hBD.zero]
      · have := HP.pos (M b) (hM1 b hb) h0
        rw [← em, hT] at this
        exact this.le
    linarith
  have hd : defect0 E x b ∈ sized K A.n := by
    show E.subOp (E.pre x b).1 (E.pre x b).2 ∈ _
    rw [HE.pre, HE.sub]
    intro i hi
    show b i - levelMul (fun b => act b) A x i = 0
    rw [hb i hi, hsz x i hi, sub_zero]
  haveI : FiniteDimensional K (sized (V := V) K A.n) := LinearEquiv.finiteDimensional (sizedEquiv K A.n).symm
  have hrank : Module.finrank K (sized (V := V) K A.n) = A.n * Module.finrank K V := by
    rw [LinearEquiv.finrank_eq (sizedEquiv K A.n), Module.finrank_pi_fintype]
    simp
  obtain ⟨ex, h1, h2, _⟩ := C28_gpcg E red maxit restart x b hr'
  have h1 := h1 maxit (le_refl _)
  have hx := gp_fin hfin h1
  exact ⟨ex, h1, hx, C66_terminates HP HPP red maxit restart maxit hm' (by rw [hrank]; exact hn) htiny x b ex hd h1 hx, h2⟩

end solve

/-! ### The hypotheses hold -/

section demo

/-- the arithmetic of a level: operator `2 x`, scalar product `x y` -/
def ratLevel : Env ℚ ℚ ℚ where
  pre x b := (x, b)
  post x := x
  subOp x b := b - 2 * x
  op x := 2 * x
  prec _ b := b
  dot x y := x * y
  norm y := if y < 0 then -y else y
  lt a b := decide (a < b)
  finite _ := true
  isZero a := decide (a = 0)
  abs a := |a|
  ofReal a := a
  sqrt a := a
  conj a := a
  rsqrt a := a
  tiny := 1 / 1000
  eps := 0
  rotEps := 0

/-- four levels, the matrix `2` on each of them, a smoother that solves with `4`, damping `1.6` -/
def ratSetup : Setup ℚ ℚ where
  coarsest := 3
  mat _ x := 2 * x
  pre _ _ d := d / 4
  post _ _ d := d / 4
  restr _ x := x
  prol _ c := c
  solve _ d := (d / 2, 0, true)
  damp := 8 / 5
  preSteps := 1
  postSteps := 1
  gamma := 1

/-- default parameters -/
def ratParms : KParms ℚ ℚ ℚ := ⟨fun _ => ratLevel, 1 / 10, 3, 10⟩

/-- multiplication by `2` -/
def ratMat : Module.End ℚ ℚ := LinearMap.mulLeft ℚ 2

theorem ratHier : KHierarchy (fun _ x y => x * y) ratSetup ratParms (fun _ => ⊤) (fun _ => ratMat) where
  prod _ := ⟨fun x y => mul_comm x y, fun x y z => add_mul x y z, fun c x z => by simp [mul_assoc]⟩
  mat _ _ := rfl
  symm _ := fun x y => by simp [ratMat]; ring
  mem_A _ _ _ := trivial
  pos _ x _ hx := by
    have := mul_self_pos.2 hx
    simp only [ratMat, LinearMap.mulLeft_apply]
    nlinarith
  mem_R _ _ _ := trivial
  mem_P _ _ _ := trivial
  lin_P _ _ _ _ := rfl
  transfer _ _ _ _ _ := rfl
  galerkin _ _ _ := rfl
  coarse r _ := ⟨trivial, by simp only [ratSetup, ratMat, LinearMap.mulLeft_apply]; ring⟩
  pre _ r _ := by
    refine ⟨trivial, ?_, fun h => ?_⟩
    · simp only [quad, ratSetup, ratMat, LinearMap.mulLeft_apply]
      nlinarith [mul_self_nonneg r]
    · simp only [quad, ratSetup, ratMat, LinearMap.mulLeft_apply]
      nlinarith [mul_self_pos.2 h]
  post _ r _ := by
    refine ⟨trivial, ?_⟩
    simp only [quad, ratSetup, ratMat, LinearMap.mulLeft_apply]
    nlinarith [mul_self_nonneg r]
  damp := by norm_num [ratSetup]
  dot _ _ _ := rfl
  op _ _ := rfl
  sub _ _ _ := rfl

/-- what `pre` builds, in the first and in the second call -/
example : kpre ratSetup [] = .ok [.onKrylov 1 (.onKrylov 2 .onCoarse), .onKrylov 2 .onCoarse, .onCoarse] ∧
    kpre ratSetup [.onCoarse] = .ok [.onKrylov 1 (.onKrylov 2 .onCoarse), .onKrylov 2 .onCoarse, .onCoarse, .onCoarse] := ⟨rfl, rfl⟩

/-- the value returned -/
def okVal {σ α : Type} : Out σ α → Option α
  | .ok a _ => some a
  | _ => none

/-- a run on a hierarchy filled with other numbers; `z = 23/4`, the exact solution is `5` -/
example : okVal (kapply ratSetup ratParms [.onKrylov 1 (.onKrylov 2 .onCoarse)] 7 10
    ⟨fineCursor, [1, 2, 3, 4], [5, 6, 7, 8], [9, 10, 11, 12], true⟩) = some (23 / 4) := by decide +kernel

example (st st' : State ℚ) (hs : st.Sized ratSetup) (z : ℚ)
    (he : kapply ratSetup ratParms [.onKrylov 1 (.onKrylov 2 .onCoarse), .onKrylov 2 .onCoarse, .onCoarse] 7 10 st = .ok z st') : 0 < 10 * z :=
  (C67_energy ratHier (fun _ _ => rfl) (by decide) (by decide) (by decide) _ (Prepared.first rfl) st st' hs 7 10 z (Or.inr (by decide)) trivial (by norm_num) he).2.2.1

end demo

end Amg
end Istl
