import Verif.Lemmas.Converge
import Verif.Lemmas.AmgSolve3
import Verif.Lemmas.OvlEnergy
import Verif.Props.C25
import Verif.Props.C58
import Verif.Props.C61

/-! # Linear convergence for block matrices -/

namespace Istl
namespace Solver

section
variable {X : Type} [AddCommGroup X] [Module ℝ X] {E : Env ℝ ℝ X} {g : LinearMap.BilinForm ℝ X} {A : X →ₗ[ℝ] X}

/-- the states of `LoopSolver` -/
def loopSeq (E : Env ℝ ℝ X) (x b : X) : Nat → X × X
  | 0 => (x, b)
  | k + 1 => loopAdvance E (k + 1) (loopSeq E x b k)

/-- the states of `GradientSolver` -/
noncomputable def gradSeq (E : Env ℝ ℝ X) (x b : X) (d : ℝ) : Nat → GradSt ℝ X ℝ
  | 0 => { x := x, b := b, d := d }
  | k + 1 => gradAdvance E (k + 1) (gradSeq E x b d k)

theorem loop_full (h : RealSpd E g A) (red : ℝ) (maxit : Nat) (x b : X) :
    let s := loopSeq E (E.pre x b).1 (defect0 E x b)
    let e := loopApply (K := ℝ) E red maxit x b
    e.exc = none ∧ e.it.i ≤ maxit ∧ e.it.def0 = E.norm (s 0).2 ∧ e.it.cur = E.norm (s e.it.i).2 ∧
      e.it.trace = record (fun j => E.norm (s j).2) e.it.i ∧ e.x = E.post (s e.it.i).1 ∧ e.b = (s e.it.i).2 ∧
      e.it.converged = small E red (E.norm (s 0).2) (E.norm (s e.it.i).2) ∧
      (∀ j, j < e.it.i → small E red (E.norm (s 0).2) (E.norm (s j).2) = false) ∧ (e.it.converged = false → e.it.i = maxit) :=
  frame_full E red maxit E.norm (loopAdvance E) (fun s => E.norm s.2) (fun _ s => s) (fun x b _ => (x, b)) Prod.fst Prod.snd x b
    (loopSeq E (E.pre x b).1 (defect0 E x b)) rfl rfl rfl rfl (fun _ => rfl) (fun _ _ => ⟨rfl, rfl⟩) (fun _ _ => rfl) (fun _ => h.finite _)

theorem gradSeq_d (x b : X) : ∀ k, (gradSeq E x b (E.norm b) k).d = E.norm (gradSeq E x b (E.norm b) k).b
  | 0 => rfl
  | _ + 1 => rfl

theorem grad_full (h : RealSpd E g A) (red : ℝ) (maxit : Nat) (x b : X) :
    let s := gradSeq E (E.pre x b).1 (defect0 E x b) (E.norm (defect0 E x b))
    let e := gradApply (K := ℝ) E red maxit x b
    e.exc = none ∧ e.it.i ≤ maxit ∧ e.it.def0 = E.norm (s 0).b ∧ e.it.cur = E.norm (s e.it.i).b ∧
      e.it.trace = record (fun j => E.norm (s j).b) e.it.i ∧ e.x = E.post (s e.it.i).x ∧ e.b = (s e.it.i).b ∧
      e.it.converged = small E red (E.norm (s 0).b) (E.norm (s e.it.i).b) ∧
      (∀ j, j < e.it.i → small E red (E.norm (s 0).b) (E.norm (s j).b) = false) ∧ (e.it.converged = false → e.it.i = maxit) := by
  have := frame_full E red maxit E.norm (gradAdvance E) (fun s => s.d) (fun _ s => s) (fun x b d => ({ x := x, b := b, d := d } : GradSt ℝ X ℝ))
    (fun s => s.x) (fun s => s.b) x b (gradSeq E (E.pre x b).1 (defect0 E x b) (E.norm (defect0 E x b))) rfl rfl rfl rfl (fun _ => rfl)
    (fun _ _ => ⟨rfl, rfl⟩) (fun _ _ => rfl) (fun _ => h.finite _)
  simp only [gradSeq_d] at this
  exact this

theorem loop_converges [FiniteDimensional ℝ X] (h : RealSpd E g A) (P : X →ₗ[ℝ] X) (hP : ∀ k b, E.prec k b = P b)
    (hstep : ∀ e, e ≠ 0 → g (A (e - P (A e))) (e - P (A e)) < g (A e) e) :
    ∃ q C, Converges E g A (fun red maxit => loopApply (K := ℝ) E red maxit) q C := by
  obtain ⟨q, h0, h1, hq⟩ := form_contracts (g.compl₁₂ A LinearMap.id) (fun x hx => by simpa using h.posA x hx) (LinearMap.id - P.comp A)
    (fun x hx => by simpa using hstep x hx)
  refine ⟨q, converges_of_frame h h0 h1 fun red maxit x b => ?_⟩
  refine ⟨fun k => (loopSeq E (E.pre x b).1 (defect0 E x b) k).1, fun k => (loopSeq E (E.pre x b).1 (defect0 E x b) k).2, rfl, rfl, ?_,
    loop_full h red maxit x b⟩
  intro k z hz hb
  set s := loopSeq E (E.pre x b).1 (defect0 E x b) with hs
  dsimp only at hb
  have e1 : (s (k + 1)).1 = (s k).1 + P (A (z - (s k).1)) := by
    change (s k).1 + E.prec (k + 1) (s k).2 = _
    rw [hP, hb]
  have e2 : (s (k + 1)).2 = (s k).2 - A (P (A (z - (s k).1))) := by
    change E.subOp (E.prec (k + 1) (s k).2) (s k).2 = _
    rw [h.sub, hP, hb]
  have ee : z - (s (k + 1)).1 = (z - (s k).1) - P (A (z - (s k).1)) := by rw [e1]; abel
  refine ⟨by dsimp only; rw [ee, e2, hb]; simp only [map_sub], ?_⟩
  dsimp only
  rw [ee]
  have := hq (z - (s k).1)
  simpa using this

theorem grad_converges [FiniteDimensional ℝ X] (h : RealSpd E g A) (P : X →ₗ[ℝ] X) (hP : ∀ k b, E.prec k b = P b)
    (hpos : ∀ b, b ≠ 0 → 0 < g (P b) b) :
    ∃ q C, Converges E g A (fun red maxit => gradApply (K := ℝ) E red maxit) q C := by
  -- (P b, b) dominates both the energy of the error and that of the search direction
  obtain ⟨c1, p1, k1⟩ := form_bound (g.compl₁₂ (P.comp A) A) (g.compl₁₂ A LinearMap.id) (fun x hx => by simpa using hpos _ (h.inj hx))
  obtain ⟨c2, p2, k2⟩ := form_bound (g.compl₁₂ (P.comp A) A) (g.compl₁₂ (A.comp (P.comp A)) (P.comp A)) (fun x hx => by simpa using hpos _ (h.inj hx))
  have k1' : ∀ x, c1 * g (A x) x ≤ g (P (A x)) (A x) := fun x => by simpa using k1 x
  have k2' : ∀ x, c2 * g (A (P (A x))) (P (A x)) ≤ g (P (A x)) (A x) := fun x => by simpa using k2 x
  refine ⟨√(max 0 (1 - c1 * c2)), converges_of_frame h (Real.sqrt_nonneg _) ?_ fun red maxit x b => ?_⟩
  · rw [Real.sqrt_lt' one_pos, one_pow]; exact max_lt one_pos (by nlinarith)
  refine ⟨fun k => (gradSeq E (E.pre x b).1 (defect0 E x b) (E.norm (defect0 E x b)) k).x,
    fun k => (gradSeq E (E.pre x b).1 (defect0 E x b) (E.norm (defect0 E x b)) k).b, rfl, rfl, ?_, grad_full h red maxit x b⟩
  intro k z hz hb
  set s := gradSeq E (E.pre x b).1 (defect0 E x b) (E.norm (defect0 E x b)) with hs
  dsimp only at hb ⊢
  set e := z - (s k).x with he
  set p := P (A e) with hp
  have hd : (s k).d = √(g (A e) (A e)) := by rw [← hb, ← h.norm]; exact gradSeq_d _ _ k
  obtain ⟨l, hl, ex, eb⟩ : ∃ l : ℝ, (A e = 0 ∨ l = g p (A e) / g (A p) p) ∧ (s (k + 1)).x = (s k).x + l • p ∧ (s (k + 1)).b = (s k).b + (-l) • A p := by
    refine ⟨if E.isZero (s k).d then 0 else E.dot (E.prec (k + 1) (s k).b) (s k).b / E.dot (E.op (E.prec (k + 1) (s k).b)) (E.prec (k + 1) (s k).b),
      ?_, ?_, ?_⟩
    · by_cases hz0 : A e = 0
      · exact .inl hz0
      · right
        have hnz : ¬ E.isZero (s k).d = true := by
          rw [h.isZero, hd, Real.sqrt_eq_zero (h.nonneg _)]
          exact (h.pos _ hz0).ne'
        rw [if_neg hnz, h.dot, h.dot, h.op, hP, hb]
    · change (s k).x + _ • E.prec (k + 1) (s k).b = _
      rw [hP, hb]
    · change (s k).b + _ • E.op (E.prec (k + 1) (s k).b) = _
      rw [hP, h.op, hb]
  have ee : z - (s (k + 1)).x = e - l • p := by rw [ex, he]; abel
  refine ⟨by rw [ee, eb, hb]; simp only [map_sub, map_smul, neg_smul]; abel, ?_⟩
  rw [ee, Real.sq_sqrt (le_max_left _ _)]
  rcases hl with h0 | hl
  · have e0 : e = 0 := by by_contra hne; exact h.inj hne h0
    have p0 : p = 0 := by rw [hp, e0]; simp
    rw [p0, e0]; simp
  by_cases e0 : e = 0
  · have p0 : p = 0 := by rw [hp, e0]; simp
    rw [p0, e0]; simp
  have gp : 0 < g p (A e) := hpos _ (h.inj e0)
  have hp0 : p ≠ 0 := by intro h0; rw [h0] at gp; simp at gp
  have gpp : 0 < g (A p) p := h.posA _ hp0
  have gee : 0 < g (A e) e := h.posA _ e0
  have expand : g (A (e - l • p)) (e - l • p) = g (A e) e - 2 * l * g p (A e) + l ^ 2 * g (A p) p := by
    have c1 : g (A e) p = g p (A e) := h.comm _ _
    have c2 : g (A p) e = g p (A e) := h.symm _ _
    simp only [map_sub, map_smul, LinearMap.sub_apply, LinearMap.smul_apply, smul_eq_mul, c1, c2]
    ring
  have hll : g (A (e - l • p)) (e - l • p) = g (A e) e - g p (A e) ^ 2 / g (A p) p := by
    rw [expand, hl]; field_simp; ring
  rw [hll]
  have hge : c1 * c2 * g (A e) e ≤ g p (A e) ^ 2 / g (A p) p := by
    rw [le_div_iff₀ gpp]
    calc c1 * c2 * g (A e) e * g (A p) p = (c1 * g (A e) e) * (c2 * g (A p) p) := by ring
      _ ≤ g p (A e) * g p (A e) := by
        apply mul_le_mul (k1' e) (k2' e) (by positivity) gp.le
      _ = _ := by ring
  calc g (A e) e - g p (A e) ^ 2 / g (A p) p ≤ (1 - c1 * c2) * g (A e) e := by linarith
    _ ≤ _ := mul_le_mul_of_nonneg_right (le_max_right _ _) gee.le

/-- A preconditioner that lowers the energy of every error is positive definite. -/
theorem pos_of_step [FiniteDimensional ℝ X] (h : RealSpd E g A) (P : X →ₗ[ℝ] X)
    (hstep : ∀ e, e ≠ 0 → g (A (e - P (A e))) (e - P (A e)) < g (A e) e) (b : X) (hb : b ≠ 0) : 0 < g (P b) b := by
  obtain ⟨e, rfl⟩ := h.solvable b
  have he : e ≠ 0 := fun h0 => hb (by rw [h0, map_zero])
  have := hstep e he
  have c1 : g (A e) (P (A e)) = g (P (A e)) (A e) := h.comm _ _
  have c2 : g (A (P (A e))) e = g (P (A e)) (A e) := h.symm _ _
  have c3 := h.nonnegA (P (A e))
  simp only [map_sub, LinearMap.sub_apply, c1, c2] at this
  linarith

end

end Solver

namespace Ovl
variable {K V R : Type} [Field K] [LinearOrder K] [IsStrictOrderedRing K] [AddCommGroup V] [Module K V] {B : V → V → K}
variable {act : R → V →+ V} {A : SpMat R}

theorem solvesOn_combine (hact : ∀ a (c : K) x, act a (c • x) = c • act a x) {D : List Nat} {r r' c c' : Nat → V} (a : K) (h : SolvesOn act A D r c)
    (h' : SolvesOn act A D r' c') : SolvesOn act A D (r + a • r') (c + a • c') where
  supp g hg := by simp [h.supp g hg, h'.supp g hg]
  eqn g hg := by
    rw [apply_add, apply_smul act hact]
    simp [h.eqn g hg, h'.eqn g hg]

theorem resid_combine (hact : ∀ a (c : K) x, act a (c • x) = c • act a x) (b b' x x' : Nat → V) (a : K) :
    resid act A (b + a • b') (x + a • x') = resid act A b x + a • resid act A b' x' := by
  funext g
  simp only [resid, apply_add, apply_smul act hact, Pi.add_apply, Pi.smul_apply, smul_sub]
  abel

theorem successive_combine (hact : ∀ a (c : K) x, act a (c • x) = c • act a x) {w : K} {doms : List (List Nat)} {b b' x y : Nat → V} (a : K)
    (h : Successive act A (SolvesOn act A) w b doms x y) {x' y' : Nat → V} (h' : Successive act A (SolvesOn act A) w b' doms x' y') :
    Successive act A (SolvesOn act A) w (b + a • b') doms (x + a • x') (y + a • y') := by
  induction h generalizing x' with
  | nil x => cases h'; exact .nil _
  | @cons D doms x c y hc _ ih =>
    cases h' with
    | @cons _ _ _ c' _ hc' h' =>
      refine .cons (c := c + a • c') ?_ ?_
      · rw [resid_combine hact]; exact solvesOn_combine hact a hc hc'
      · have := ih h'
        have e : x + w • c + a • (x' + w • c') = x + a • x' + w • (c + a • c') := by
          simp only [smul_add, smul_smul, mul_comm w a]; abel
        rwa [e] at this

theorem together_combine (hact : ∀ a (c : K) x, act a (c • x) = c • act a x) {w : K} {doms : List (List Nat)} {b b' x y x' y' : Nat → V} (a : K)
    (h : Together act A (SolvesOn act A) w b doms x y) (h' : Together act A (SolvesOn act A) w b' doms x' y') :
    Together act A (SolvesOn act A) w (b + a • b') doms (x + a • x') (y + a • y') := by
  obtain ⟨cs, h1, rfl⟩ := h
  obtain ⟨cs', h1', rfl⟩ := h'
  have key : ∃ cs'' : List (Nat → V), List.Forall₂ (fun D c => SolvesOn act A D (resid act A (b + a • b') (x + a • x')) c) doms cs'' ∧
      cs''.sum = cs.sum + a • cs'.sum := by
    rw [resid_combine hact]
    induction h1 generalizing cs' with
    | nil => cases h1'; exact ⟨[], .nil, by simp⟩
    | @cons D c doms cs hc _ ih =>
      cases h1' with
      | @cons _ c' _ cs' hc' h1' =>
        obtain ⟨cs'', k1, k2⟩ := ih cs' h1'
        refine ⟨(c + a • c') :: cs'', .cons (solvesOn_combine hact a hc hc') k1, ?_⟩
        rw [List.sum_cons, List.sum_cons, List.sum_cons, k2, smul_add]
        abel
  obtain ⟨cs'', k1, k2⟩ := key
  refine ⟨cs'', k1, ?_⟩
  rw [k2]
  simp only [smul_add, smul_smul, mul_comm w a]
  abel

theorem together_zero (hB : ScalarProd B) (hP : A.PosDef B act) {w : K} {doms : List (List Nat)} (hn : ∀ D ∈ doms, ∀ g ∈ D, g < A.n) {y : Nat → V}
    (h : Together act A (SolvesOn act A) w 0 doms 0 y) : y = 0 := by
  obtain ⟨cs, hcs, rfl⟩ := h
  have hz : ∀ c ∈ cs, c = 0 := by
    intro c hc
    obtain ⟨k, hk, rfl⟩ := List.mem_iff_getElem.1 hc
    have hk' : k < doms.length := by rw [hcs.length_eq]; exact hk
    exact solvesOn_zero hB act A hP (hn _ (List.getElem_mem hk')) ((List.forall₂_iff_get.1 hcs).2 k hk' hk)
      (fun g _ => by simp [resid, SpMat.apply, SpMat.partSum])
  rw [List.sum_eq_zero hz]
  simp

theorem successive_zero (hB : ScalarProd B) (hP : A.PosDef B act) {w : K} {doms : List (List Nat)} (hn : ∀ D ∈ doms, ∀ g ∈ D, g < A.n)
    {y : Nat → V} (h : Successive act A (SolvesOn act A) w 0 doms 0 y) : y = 0 :=
  successive_fixed hB act A hP h hn (fun D _ g _ => by simp [SpMat.apply, SpMat.partSum])

end Ovl
end Istl
