import Verif.Lemmas.PowerIt2

/-!
# Partial correctness of the eigenvalue algorithms, and eigenvalues near approximate pairs
-/

namespace Istl

/-- The matrix can be shifted: it is well formed and square, and all diagonal blocks are stored unless the iteration
matrix was never asked for. -/
def Shiftable {K : Type} (m : SpMat (PBlock K)) (o : PObj K) : Prop :=
  m.WF ∧ m.m = m.n ∧ (o.itMat = none ∨ ∀ i < m.n, (m.row i).Has i)

namespace Pow

open scoped InnerProductSpace

section Generic
variable {K X : Type}

theorem andThen_ok {p : PState K X × Res Unit} {f : PState K X → PState K X × Res Unit} {s' : PState K X}
    (h : andThen p f = (s', .ok ())) : ∃ s1, p = (s1, .ok ()) ∧ f s1 = (s', .ok ()) := by
  obtain ⟨s1, r⟩ := p
  cases r with
  | ok u => exact ⟨s1, rfl, h⟩
  | throw e => cases h
  | ub => cases h

theorem solveWith_ok {sol : PObj K → X → X → Res X} {s s' : PState K X} (h : solveWith sol s = (s', .ok ())) :
    ∃ z, sol s.obj s.y s.x = .ok z ∧ s' = { s with y := z } := by
  unfold solveWith at h
  cases hs : sol s.obj s.y s.x with
  | ok z => rw [hs] at h; exact ⟨z, rfl, (Prod.mk.inj h).1.symm⟩
  | throw e => rw [hs] at h; cases h
  | ub => rw [hs] at h; cases h

theorem updateShiftMu_ok [AddGroup K] {env : PEnv K X} (heq : ∀ a b, env.eq a b = true ↔ a = b)
    {m : SpMat (PBlock K)} {b : Nat} (mu : K) {o : PObj K} (hs : Shiftable m o) (ho : InSync m b o) :
    ∃ o', updateShiftMu env m b mu o = (o', .ok ()) ∧ InSync m b o' ∧ o'.mu = mu ∧ o'.nIt = o.nIt ∧
      Shiftable m o' := by
  obtain ⟨hm, hsq, hd⟩ := hs
  rcases hd with hd | hd
  · unfold updateShiftMu
    by_cases h : mu = o.mu
    · rw [if_pos ((heq _ _).mpr h)]
      exact ⟨o, rfl, ho, h.symm, rfl, hm, hsq, Or.inl hd⟩
    · rw [if_neg (fun h' => h ((heq _ _).mp h')), hd]
      exact ⟨⟨mu, none, o.nIt⟩, rfl, fun C' h' => by simp at h', rfl, rfl, hm, hsq, Or.inl rfl⟩
  · obtain ⟨o', h1, h2, h3, h4, h5⟩ := updateShiftMu_spec heq hm hsq hd mu ho
    exact ⟨o', h1, h2, h3, h4, hm, hsq, Or.inr hd⟩

end Generic

variable {E : Type} [NormedAddCommGroup E] [InnerProductSpace ℝ E] {A : E →ₗ[ℝ] E} {big : ℝ}
  {m : SpMat (PBlock ℝ)} {b : Nat} {sol : PObj ℝ → E → E → Res E}

theorem solved_ne {γ : ℝ} {x y : E} (h : A y - γ • y = x) (hx : ‖x‖ = 1) : y ≠ 0 := by
  rintro rfl
  rw [map_zero, smul_zero, sub_zero] at h
  rw [← h, norm_zero] at hx
  exact zero_ne_one hx

/-- What holds before every pass of the solver based algorithms. -/
def Ready (A : E →ₗ[ℝ] E) (big : ℝ) (m : SpMat (PBlock ℝ)) (b : Nat) (s : PState ℝ E) : Prop :=
  ‖s.x‖ = 1 ∧ InSync m b s.obj ∧ Shiftable m s.obj ∧ (s.r = big ∨ Good A s)

theorem ready_start {o : PObj ℝ} (ho : InSync m b o) (hs : Shiftable m o) {x : E} (hx : x ≠ 0) (lam : ℝ) :
    Ready A big m b (powStart (realEnv A big) o x lam) :=
  ⟨norm_unitVec hx, ho, hs, Or.inl rfl⟩

theorem invStep_ready (hsol : ExactEigSolver A m b sol) (avoid : Bool) (γ : ℝ) {s s' : PState ℝ E}
    (h : Ready A big m b s ∧ s.obj.mu = γ) (hs : invStep (realEnv A big) avoid γ sol s.bump = (s', .ok ())) :
    (Ready A big m b s' ∧ s'.obj.mu = γ) ∧ s'.obj.nIt = s.obj.nIt + 1 := by
  obtain ⟨⟨hx, hy, hz, _⟩, hmu⟩ := h
  obtain ⟨s1, h1, h2⟩ := andThen_ok hs
  obtain ⟨z, hz1, rfl⟩ := solveWith_ok h1
  have hAz : A z - γ • z = s.x := by
    have := hsol _ _ _ _ (show InSync m b s.bump.obj from hy) hz1
    rw [← hmu]; exact this
  have hz0 : z ≠ 0 := solved_ne hAz hx
  have e : (if avoid then crimeFree (realEnv A big) { s.bump with y := z }
      else invCrime (realEnv A big) γ { s.bump with y := z }) = pairOf A z := by
    split
    · exact crimeFree_eq _ hz0
    · exact invCrime_eq _ hAz hz0
  rw [e] at h2
  cases h2
  have hg := accept_good (A := A) (big := big) (s := { s.bump with y := z }) hz0
  exact ⟨⟨⟨hg.1, hy, hz, Or.inr hg⟩, hmu⟩, rfl⟩

theorem withShift_ok (mu : ℝ) {s : PState ℝ E} (ho : InSync m b s.obj) (hs : Shiftable m s.obj) :
    ∃ o', withShift (realEnv A big) m b mu s = ({ s with obj := o' }, .ok ()) ∧ InSync m b o' ∧ o'.mu = mu ∧
      o'.nIt = s.obj.nIt ∧ Shiftable m o' := by
  obtain ⟨o', h1, h2⟩ := updateShiftMu_ok (env := realEnv A big) (fun a b => eq_true) mu hs ho
  refine ⟨o', ?_, h2⟩
  unfold withShift
  rw [h1]

theorem rqiStep_ready (hsol : ExactEigSolver A m b sol) (avoid : Bool) {s s' : PState ℝ E}
    (h : Ready A big m b s) (hs : rqiStep (realEnv A big) m b avoid sol s.bump = (s', .ok ())) :
    Ready A big m b s' ∧ s'.obj.nIt = s.obj.nIt + 1 := by
  obtain ⟨hx, hy, hz, _⟩ := h
  obtain ⟨s1, h1, h2⟩ := andThen_ok hs
  obtain ⟨o', e1, e2, e3, e4, e5⟩ := withShift_ok (A := A) (big := big) (b := b) (s := s.bump) s.bump.lam hy hz
  rw [e1] at h1
  cases h1
  obtain ⟨s2, h3, h4⟩ := andThen_ok h2
  obtain ⟨z, hz1, rfl⟩ := solveWith_ok h3
  have hAz : A z - s.lam • z = s.x := by
    have := hsol _ _ _ _ e2 hz1
    rw [e3] at this
    exact this
  have hz0 : z ≠ 0 := solved_ne hAz hx
  have e : (if avoid then crimeFree (realEnv A big) { s.bump with y := z, obj := o' }
      else rqiCrime (realEnv A big) { s.bump with y := z, obj := o' }) = pairOf A z := by
    split
    · exact crimeFree_eq _ hz0
    · exact rqiCrime_eq _ hAz hz0
  dsimp only at h4
  rw [e] at h4
  cases h4
  have hg := accept_good (A := A) (big := big) (s := { s.bump with y := z, obj := o' }) hz0
  exact ⟨⟨hg.1, e2, e5, Or.inr hg⟩, e4⟩

/-- The switching logic changes only the flags. -/
theorem tlimeSwitch_same (env : PEnv ℝ E) (γ η δ : ℝ) (k : Nat) (q mo : ℝ) (s : PState ℝ E) :
    (tlimeSwitch env γ η δ k q mo s).x = s.x ∧ (tlimeSwitch env γ η δ k q mo s).lam = s.lam ∧
    (tlimeSwitch env γ η δ k q mo s).r = s.r ∧ (tlimeSwitch env γ η δ k q mo s).obj = s.obj := by
  unfold tlimeSwitch
  dsimp only
  split_ifs <;> exact ⟨rfl, rfl, rfl, rfl⟩

/-- Flags after the switching logic. -/
theorem tlimeSwitch_flags (γ η δ : ℝ) (k : Nat) (q mo : ℝ) (s : PState ℝ E)
    (hq : s.doRQI = false → q < η → |s.lam - γ| < η) :
    (tlimeSwitch (realEnv A big) γ η δ k q mo s).asserted = s.asserted ∧
    ((tlimeSwitch (realEnv A big) γ η δ k q mo s).extrnl = false → s.extrnl = false ∨ (s.doRQI = false ∧ q < η)) := by
  unfold tlimeSwitch
  dsimp only
  by_cases h1 : (!s.doRQI && (realEnv A big).gt η q) = true
  · rw [if_pos h1]
    simp only [Bool.and_eq_true, Bool.not_eq_true', gt_true] at h1
    have h2 : (realEnv A big).gt η ((realEnv A big).abs (s.lam - γ)) = true := gt_true.mpr (hq h1.1 h1.2)
    rw [h2]
    refine ⟨?_, fun _ => Or.inr h1⟩
    split_ifs <;> simp
  · rw [if_neg h1]
    refine ⟨?_, ?_⟩
    · split_ifs <;> rfl
    · split_ifs <;> exact fun h => Or.inl h

/-- What holds before every pass of TLIME. -/
def TReady (A : E →ₗ[ℝ] E) (big : ℝ) (m : SpMat (PBlock ℝ)) (b : Nat) (γ η : ℝ) (s : PState ℝ E) : Prop :=
  Ready A big m b s ∧ s.asserted = true ∧ (s.extrnl = false → ∃ u, ‖u‖ = 1 ∧ ‖A u - γ • u‖ < η)

theorem tlimeStep_ready (hsol : ExactEigSolver A m b sol) (avoid : Bool) {γ η δ : ℝ} {k : Nat} {s s' : PState ℝ E}
    (h : TReady A big m b γ η s)
    (hs : tlimeStep (realEnv A big) m b avoid γ η δ k sol s.bump = (s', .ok ())) :
    TReady A big m b γ η s' ∧ s'.obj.nIt = s.obj.nIt + 1 := by
  obtain ⟨⟨hx, hy, hz, _⟩, hass, hex⟩ := h
  obtain ⟨s1, h1, h2⟩ := andThen_ok hs
  obtain ⟨o', e1, e2, e3, e4, e5⟩ := withShift_ok (A := A) (big := big) (b := b) (s := s.bump)
    (if s.bump.doRQI then s.bump.lam else γ) hy hz
  rw [e1] at h1
  cases h1
  obtain ⟨s2, h3, h4⟩ := andThen_ok h2
  obtain ⟨z, hz1, rfl⟩ := solveWith_ok h3
  have hAz : A z - (if s.doRQI then s.lam else γ) • z = s.x := by
    have := hsol _ _ _ _ e2 hz1
    rw [e3] at this
    exact this
  have hz0 : z ≠ 0 := solved_ne hAz hx
  obtain ⟨n1, n2, n3⟩ := tlime_nums (A := A) (big := big) (γ := γ) avoid
    { s.bump with y := z, obj := o' } rfl hAz hx hz0
  dsimp only at h4
  generalize hN : tlimeNums (realEnv A big) avoid γ { s.bump with y := z, obj := o' } = N at n1 n2 n3 h4
  obtain ⟨N1, N2, N3⟩ := N
  dsimp only at n1 n2 n3 h4
  subst n1 n2
  have hg := accept_good (A := A) (big := big) (s := { s.bump with y := z, obj := o' }) hz0
  have hpyth := shift_pyth (A := A) (norm_unitVec hz0) γ
  have hq : s.doRQI = false → N2 < η → |(pairOf A z).1 - γ| < η := by
    intro hd hlt
    rw [n3 hd] at hlt
    refine lt_of_le_of_lt ?_ hlt
    apply abs_le_of_sq_le_sq
    · have : (pairOf A z).1 = ⟪unitVec z, A (unitVec z)⟫_ℝ := rfl
      rw [this]
      nlinarith [mul_self_nonneg ‖A (unitVec z) - ⟪unitVec z, A (unitVec z)⟫_ℝ • unitVec z‖]
    · exact norm_nonneg _
  obtain ⟨f1, f2⟩ := tlimeSwitch_flags (A := A) (big := big) γ η δ k N2 s.bump.lam
    (accept (realEnv A big) (pairOf A z) { s.bump with y := z, obj := o' }) hq
  obtain ⟨g1, g2, g3, g4⟩ := tlimeSwitch_same (realEnv A big) γ η δ k N2 s.bump.lam
    (accept (realEnv A big) (pairOf A z) { s.bump with y := z, obj := o' })
  have he : s' = tlimeSwitch (realEnv A big) γ η δ k N2 s.bump.lam
    (accept (realEnv A big) (pairOf A z) { s.bump with y := z, obj := o' }) := (Prod.mk.inj h4).1.symm
  rw [← he] at f1 f2 g1 g2 g3 g4
  refine ⟨⟨⟨?_, ?_, ?_, Or.inr ?_⟩, ?_, ?_⟩, ?_⟩
  · rw [g1]; exact hg.1
  · rw [g4]; exact e2
  · rw [g4]; exact e5
  · unfold Good; rw [g1, g2, g3]; exact hg
  · rw [f1]; exact hass
  · intro h
    rcases f2 h with h | ⟨hd, hlt⟩
    · exact hex h
    · refine ⟨unitVec z, norm_unitVec hz0, ?_⟩
      rw [← n3 hd]; exact hlt
  · rw [g4]; exact e4

/-! ### Eigenvalues near approximate pairs -/

theorem eigenvalue_near [FiniteDimensional ℝ E] (hA : SymMap A) {u : E} (hu : ‖u‖ = 1) (γ : ℝ) :
    ∃ μ, IsEigenvalue A μ ∧ |μ - γ| ≤ ‖A u - γ • u‖ := by
  classical
  have hS : A.IsSymmetric := hA
  by_contra hcon
  push Not at hcon
  let B := hS.eigenvectorBasis rfl
  let ev := hS.eigenvalues rfl
  have hB : ∀ i, A (B i) = ev i • B i := fun i => hS.apply_eigenvectorBasis rfl i
  have hev : ∀ i, ‖A u - γ • u‖ < |ev i - γ| := fun i => by
    apply hcon
    refine ⟨B i, ?_, hB i⟩
    intro h0
    have := B.orthonormal.1 i
    rw [h0, norm_zero] at this
    exact zero_ne_one this
  have hc : ∀ i, ⟪B i, A u - γ • u⟫_ℝ = (ev i - γ) * ⟪B i, u⟫_ℝ := fun i => by
    rw [inner_sub_right, ← hA, hB, real_inner_smul_left, real_inner_smul_right]; ring
  have h1 : ∑ i, ⟪B i, u⟫_ℝ ^ 2 = 1 := by
    have := B.sum_sq_norm_inner_right u
    rw [hu] at this
    simpa using this
  have h2 : ∑ i, ((ev i - γ) * ⟪B i, u⟫_ℝ) ^ 2 = ‖A u - γ • u‖ ^ 2 := by
    have := B.sum_sq_norm_inner_right (A u - γ • u)
    simp only [hc, Real.norm_eq_abs, sq_abs] at this
    exact this
  have h3 : ‖A u - γ • u‖ ^ 2 < ∑ i, ((ev i - γ) * ⟪B i, u⟫_ℝ) ^ 2 := by
    have hle : ∀ i, ‖A u - γ • u‖ ^ 2 * ⟪B i, u⟫_ℝ ^ 2 ≤ ((ev i - γ) * ⟪B i, u⟫_ℝ) ^ 2 := fun i => by
      rw [mul_pow, ← sq_abs (ev i - γ)]
      exact mul_le_mul_of_nonneg_right (pow_le_pow_left₀ (norm_nonneg _) (hev i).le 2) (sq_nonneg _)
    have hex : ∃ i, ⟪B i, u⟫_ℝ ≠ 0 := by
      by_contra h
      push Not at h
      simp [h] at h1
    obtain ⟨i, hi⟩ := hex
    calc ‖A u - γ • u‖ ^ 2 = ∑ i, ‖A u - γ • u‖ ^ 2 * ⟪B i, u⟫_ℝ ^ 2 := by rw [← Finset.mul_sum, h1, mul_one]
      _ < ∑ i, ((ev i - γ) * ⟪B i, u⟫_ℝ) ^ 2 := by
        apply Finset.sum_lt_sum (fun i _ => hle i)
        refine ⟨i, Finset.mem_univ _, ?_⟩
        rw [mul_pow, ← sq_abs (ev i - γ)]
        exact mul_lt_mul_of_pos_right (pow_lt_pow_left₀ (hev i) (norm_nonneg _) (by norm_num)) (by positivity)
  exact absurd h2 (ne_of_gt h3)

end Pow

end Istl
