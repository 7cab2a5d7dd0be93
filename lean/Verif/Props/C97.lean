import Verif.Lemmas.Dominant2
import Verif.Lemmas.Kahan

/-!
# C97 — relaxation for diagonally dominant matrices, and the range of the relaxation factor

In exact real arithmetic, without symmetry: for strictly diagonally dominant block matrices every sweep shrinks the largest block of the error by
a known factor, and `LoopSolver` converges. For real matrices SOR and SSOR converge only if the relaxation factor is between 0 and 2.
-/

namespace Istl
open Gsetc SpMat Solver Amg Prec

section
variable {R V : Type} [AddCommGroup V] [Module ℝ V] {ν : Seminorm ℝ V} {A : SpMat R} {size : R → ℝ} {c : Nat → ℝ} {q : ℝ} {β : BlockSolve R V V}

/-- **C97.** One Jacobi, Gauss-Seidel or SOR sweep (forward or backward) with `0 < w ≤ 1` shrinks the largest block of the error by the factor
`1 - w (1 - q)`, for each start vector and right hand side. -/
theorem C97_sweeps (hβ : ∀ a (c : ℝ) x, β.act a (c • x) = c • β.act a x) (hS : A.Sorted) (hG : A.HasDiag) (hC : A.Square)
    (hd : A.Dominant ν β.act size c q) {w : ℝ} (h0 : 0 < w) (h1 : w ≤ 1) {z b : Nat → V} (hz : ∀ i, i < A.n → A.apply β.act z i = b i)
    {x x' : Nat → V} (h : dbjac β.act (solveLoc β) w A b x = .ok x' ∨ dbgs β.act (solveLoc β) w A b x = .ok x' ∨
      bsorf β.act (solveLoc β) w A b x = .ok x' ∨ bsorb β.act (solveLoc β) w A b x = .ok x')
    {ε : ℝ} (hx : ∀ i, i < A.n → ν (z i - x i) ≤ ε) : ∀ i, i < A.n → ν (z i - x' i) ≤ (1 - w * (1 - q)) * ε := by
  intro i hi
  have hε : 0 ≤ ε := (apply_nonneg ν _).trans (hx i hi)
  rcases h with h | h | h | h
  · exact dom_dbjac hβ hS hG hC hd h0.le h1 hz h hε hx i hi
  · exact dom_dbgs hβ hS hG hC hd h0.le h1 hz h hε hx i hi
  · exact dom_bsorf hβ hS hG hC hd h0.le h1 hz h hε hx i hi
  · exact dom_bsorb hβ hS hG hC hd h0.le h1 hz h hε hx i hi

end

section
variable {R V : Type} [Ring R] [AddCommGroup V] [Module R V] [Module ℝ V] {ν : Seminorm ℝ V} {A : SpMat R} {size : R → ℝ} {c : Nat → ℝ} {q : ℝ}
  {β : BlockSolve R V V}

theorem iterate_contract {ρ : ℝ} (hρ : 0 ≤ ρ) (f : (Nat → V) → Res (Nat → V)) (e : Nat → V) (n : Nat)
    (hf : ∀ v v' ε, 0 ≤ ε → f v = .ok v' → (∀ i, i < n → ν (e i - v i) ≤ ε) → ∀ i, i < n → ν (e i - v' i) ≤ ρ * ε) (k : Nat) {ε : ℝ} (hε : 0 ≤ ε)
    (he : ∀ i, i < n → ν (e i) ≤ ε) {y : Nat → V} (hy : iterate k f 0 = .ok y) : ∀ i, i < n → ν (e i - y i) ≤ ρ ^ k * ε := by
  obtain ⟨x, x0, xn, hx⟩ := iterate_seq k f 0 y hy
  have : ∀ j, j ≤ k → ∀ i, i < n → ν (e i - x j i) ≤ ρ ^ j * ε := by
    intro j
    induction j with
    | zero => intro _ i hi; rw [x0]; simpa using he i hi
    | succ j ih =>
      intro hj i hi
      rw [pow_succ', mul_assoc]
      exact hf _ _ _ (mul_nonneg (pow_nonneg hρ j) hε) (hx j (by omega)) (ih (by omega)) i hi
  rw [← xn]
  exact this k le_rfl

/-- The number of sweeps of one call of `apply`. -/
def sweepsOf (P : Prec.Obj R ℝ) (A : SpMat R) (k : Nat) (w : ℝ) (s : Nat) : Prop :=
  P = .jac A k w ∧ s = k ∨ P = .sor A k w ∧ s = k ∨ P = .ssor A k w ∧ s = 2 * k

/-- **C97.** `SeqJac`, `SeqSOR`/`SeqGS` (`s = k` sweeps) and `SeqSSOR` (`s = 2k`): one `apply` to the defect `A e` of an error `e` returns an
approximation of `e` up to the factor `(1 - w (1 - q))^s`. -/
theorem C97_apply (hβ : ∀ a (c : ℝ) x, β.act a (c • x) = c • β.act a x) (tr : R → R) (nid : ℝ → Bool) (hS : A.Sorted) (hG : A.HasDiag) (hC : A.Square)
    (hd : A.Dominant ν β.act size c q) {w : ℝ} (h0 : 0 < w) (h1 : w ≤ 1) {k s : Nat} {P P' : Prec.Obj R ℝ} (hP : sweepsOf P A k w s)
    {e d y : Nat → V} (he : ∀ i, i < A.n → A.apply β.act e i = d i) (h : Prec.apply β tr nid P 0 d = .ok (P', y)) {ε : ℝ} (hε : ∀ i, i < A.n → ν (e i) ≤ ε) :
    ∀ i, i < A.n → ν (e i - y i) ≤ (1 - w * (1 - q)) ^ s * ε := by
  intro i hi
  have hε0 : 0 ≤ ε := (apply_nonneg ν _).trans (hε i hi)
  have hρ : 0 ≤ 1 - w * (1 - q) := by nlinarith [hd.rate.1, hd.rate.2]
  rcases hP with ⟨rfl, rfl⟩ | ⟨rfl, rfl⟩ | ⟨rfl, rfl⟩
  · dsimp only [Prec.apply] at h
    obtain ⟨v, k1, k2⟩ := Res.bind_eq_ok.1 h
    injection k2 with k2; injection k2 with _ k2
    rw [← k2]
    exact iterate_contract hρ _ e A.n (fun v v' ε hε hv hx => dom_dbjac hβ hS hG hC hd h0.le h1 he hv hε hx) _ hε0 hε k1 i hi
  · dsimp only [Prec.apply, sorDir] at h
    rw [if_pos rfl] at h
    obtain ⟨v, k1, k2⟩ := Res.bind_eq_ok.1 h
    injection k2 with k2; injection k2 with _ k2
    rw [← k2]
    exact iterate_contract hρ _ e A.n (fun v v' ε hε hv hx => dom_bsorf hβ hS hG hC hd h0.le h1 he hv hε hx) _ hε0 hε k1 i hi
  · dsimp only [Prec.apply] at h
    obtain ⟨v, k1, k2⟩ := Res.bind_eq_ok.1 h
    injection k2 with k2; injection k2 with _ k2
    rw [← k2, pow_mul]
    refine iterate_contract (pow_nonneg hρ 2) _ e A.n (fun v v' ε hε hv hx => ?_) _ hε0 hε k1 i hi
    unfold ssorStep at hv
    obtain ⟨v1, m1, m2⟩ := Res.bind_eq_ok.1 hv
    have := dom_bsorb hβ hS hG hC hd h0.le h1 he m2 (mul_nonneg hρ hε) (dom_bsorf hβ hS hG hC hd h0.le h1 he m1 hε hx)
    intro i hi
    rw [pow_two, mul_assoc]
    exact this i hi

variable {D : V → V → ℝ} {E : Env ℝ ℝ (Fin A.n → V)}

/-- **C97.** `LoopSolver` with one of them converges for each strictly diagonally dominant block matrix: in each iteration the largest block of the
error shrinks at least by `(1 - w (1 - q))^s`. -/
theorem C97_loop [FiniteDimensional ℝ V] (hβ : ∀ a (c : ℝ) x, β.act a (c • x) = c • β.act a x) (tr : R → R) (nid : ℝ → Bool) (hS : A.Sorted)
    (hG : A.HasDiag) (hC : A.Square) (hd : A.Dominant ν β.act size c q) (hν : ∀ v, ν v ^ 2 = D v v) (hDp : ∀ v, v ≠ 0 → 0 < D v v) {w : ℝ} (h0 : 0 < w)
    (h1 : w ≤ 1) {k s : Nat} (hk : 0 < k) {P : Prec.Obj R ℝ} (hP : sweepsOf P A k w s) (hE : MatEnv D β.act A E) (hU : Uses β tr nid P E) :
    ∃ C, ConvergesMax ν E (fun x i => A.apply β.act (extend x) i) (fun red maxit => loopApply (K := ℝ) E red maxit) ((1 - w * (1 - q)) ^ s) C := by
  have hρ0 : 0 ≤ 1 - w * (1 - q) := by nlinarith [hd.rate.1, hd.rate.2]
  have hρ1 : 1 - w * (1 - q) < 1 := by nlinarith [hd.rate.1, hd.rate.2]
  have hs : s ≠ 0 := by rcases hP with ⟨-, rfl⟩ | ⟨-, rfl⟩ | ⟨-, rfl⟩ <;> omega
  refine loop_max hβ hE hν hDp hS hG hd ⟨pow_nonneg hρ0 s, pow_lt_one₀ hρ0 hρ1 hs⟩ fun j e ε hε he i => ?_
  obtain ⟨P', y, hy, hyi⟩ := hU j (blockOp β.act A e)
  rw [hyi, ← extend_apply e i]
  refine C97_apply hβ tr nid hS hG hC hd h0 h1 hP (fun l hl => ?_) hy (fun l hl => extend_bound hε he l) i i.2
  simp [extend, hl, blockOp]

end

/-! ### Real matrices -/

/-- For numbers as entries the condition is the usual one. -/
theorem dominant_real (A : SpMat ℝ) (hS : A.Sorted) (β : BlockSolve ℝ ℝ ℝ) (hβ : ∀ a x, β.act a x = a * x) {q : ℝ} (hq : 0 ≤ q ∧ q < 1) (d : Nat → ℝ)
    (hd : ∀ i, i < A.n → (A.row i).Stores i (d i) ∧ d i ≠ 0 ∧ (((A.row i).filter fun e => decide (e.1 ≠ i)).map fun e => |e.2|).sum ≤ q * |d i|) :
    A.Dominant (normSeminorm ℝ ℝ) β.act (fun a => |a|) (fun i => |d i|) q where
  nonneg a := abs_nonneg a
  bound a v := by rw [hβ, coe_normSeminorm, Real.norm_eq_abs, Real.norm_eq_abs, abs_mul]
  diag i hi a ha v := by
    obtain rfl := stores_unique (hS i hi) ha (hd i hi).1
    rw [hβ, coe_normSeminorm, Real.norm_eq_abs, Real.norm_eq_abs, abs_mul]
  pos i hi := abs_pos.2 (hd i hi).2.1
  row i hi := (hd i hi).2.2
  rate := hq

/-- `X` are the iterates of `LoopSolver` for `A x = b` with the preconditioner `P`, without stopping criterion. -/
def Iterates (β : BlockSolve ℝ ℝ ℝ) (tr : ℝ → ℝ) (nid : ℝ → Bool) (P : Prec.Obj ℝ ℝ) (A : SpMat ℝ) (b : Nat → ℝ) (X : Nat → Nat → ℝ) : Prop :=
  ∀ j, ∃ P' y, Prec.apply β tr nid P 0 (fun i => b i - A.apply β.act (X j) i) = .ok (P', y) ∧ X (j + 1) = X j + y

open Filter Matrix in
/-- **C97** (Kahan). Whatever the real matrix: if the iteration with `SeqSOR` or `SeqSSOR` converges from each start vector (to some common limit),
the relaxation factor is between 0 and 2. -/
theorem C97_relaxation_range (β : BlockSolve ℝ ℝ ℝ) (hβ : ∀ a x, β.act a x = a * x) (tr : ℝ → ℝ) (nid : ℝ → Bool) (A : SpMat ℝ) (hn : 0 < A.n)
    (hS : A.Sorted) (hG : A.HasDiag) (hC : A.Square) (hI : A.DiagInvertible β.act) (k : Nat) (hk : 0 < k) (w : ℝ) (P : Prec.Obj ℝ ℝ)
    (hP : P = .sor A k w ∨ P = .ssor A k w) (b z : Nat → ℝ)
    (hconv : ∀ X, Iterates β tr nid P A b X → ∀ i, i < A.n → Tendsto (fun j => X j i) atTop (nhds (z i))) : 0 < w ∧ w < 2 := by
  obtain ⟨M, hM⟩ := C26_sweep_preconditioners_linear β (fun a c x => by rw [hβ, hβ]; simp only [smul_eq_mul]; ring) tr nid A hS hG hI k w P
    (by rcases hP with h | h; exact .inr (.inl h); exact .inl h)
  obtain ⟨T, m, hm, hdet, hT⟩ := prec_prop hβ hS hG hC hI tr nid k w P hP
  let X : (Nat → ℝ) → Nat → Nat → ℝ := fun x0 => Nat.rec x0 fun _ x => x + M (fun i => b i - A.apply β.act x i)
  have hX : ∀ x0, Iterates β tr nid P A b (X x0) := fun x0 j => ⟨P, _, hM _, rfl⟩
  have hdiff : ∀ x0 j, headV A.n (fun i => X x0 j i - X 0 j i) = (T ^ j) *ᵥ headV A.n x0 := by
    intro x0 j
    induction j with
    | zero => rw [pow_zero, Matrix.one_mulVec]; funext i; exact sub_zero _
    | succ j ih =>
      have h1 := hT (fun i => X x0 j i - X 0 j i) _ (hM _)
      rw [ih, Matrix.mulVec_mulVec, ← pow_succ'] at h1
      rw [← h1]
      funext i
      have e1 : M (fun i => A.apply β.act (fun i => X x0 j i - X 0 j i) i) =
          M (fun i => b i - A.apply β.act (X 0 j) i) - M (fun i => b i - A.apply β.act (X x0 j) i) := by
        rw [← map_sub]
        congr 1
        funext i
        have := partSum_sub β.act A (fun _ => True) (X x0 j) (X 0 j) i
        change A.partSum β.act _ _ i = (b i - A.partSum β.act (fun _ => True) (X 0 j) i) - (b i - A.partSum β.act (fun _ => True) (X x0 j) i)
        rw [← this]; ring
      have e2 := congrFun e1 (i : Nat)
      change (X x0 j i + M (fun i => b i - A.apply β.act (X x0 j) i) i) - (X 0 j i + M (fun i => b i - A.apply β.act (X 0 j) i) i) = _
      simp only [headV]
      rw [e2, Pi.sub_apply]; ring
  have hlt := det_lt_one hn T fun v i => by
    have h1 := (hconv _ (hX (extend v)) i i.2).sub (hconv _ (hX 0) i i.2)
    rw [sub_self] at h1
    have e : headV A.n (extend v) = v := by funext l; simp [headV, extend]
    refine h1.congr fun j => ?_
    have := congrFun (hdiff (extend v) j) i
    rw [e] at this
    exact this
  rw [hdet, abs_pow] at hlt
  have : |1 - w| < 1 := by
    by_contra h
    exact absurd (one_le_pow₀ (not_lt.1 h) (n := m)) (not_le.2 hlt)
  rw [abs_lt] at this
  constructor <;> linarith

/-! ### The hypotheses hold for a matrix that is not symmetric -/

/-- A matrix with rows `4 -1 0`, `-2 5 1`, `0 -3 4`. -/
noncomputable def demoDom : SpMat ℝ :=
  { n := 3, m := 3, row := fun i => match i with | 0 => [(0, 4), (1, -1)] | 1 => [(0, -2), (1, 5), (2, 1)] | 2 => [(1, -3), (2, 4)] | _ => [] }

theorem demoDom_ok : demoDom.Sorted ∧ demoDom.HasDiag ∧ demoDom.Square ∧ demoDom.DiagInvertible realSolve.act := by
  have st : ∀ i, i < demoDom.n → ∃ a, (demoDom.row i).Stores i a ∧ a ≠ 0 := by
    intro i hi
    have hi : i < 3 := hi
    interval_cases i
    · exact ⟨4, by simp [Row.Stores, demoDom], by norm_num⟩
    · exact ⟨5, by simp [Row.Stores, demoDom], by norm_num⟩
    · exact ⟨4, by simp [Row.Stores, demoDom], by norm_num⟩
  have hS : demoDom.Sorted := by
    intro i hi
    have hi : i < 3 := hi
    interval_cases i <;> simp [Row.Asc, demoDom]
  refine ⟨hS, fun i hi => (st i hi).imp fun a h => h.1, ?_, ?_⟩
  · intro i hi e he
    have hi : i < 3 := hi
    change e.1 < 3
    interval_cases i <;> (simp [demoDom] at he; rcases he with rfl | rfl | rfl <;> norm_num)
  · intro i hi a ha
    obtain ⟨a0, h1, h2⟩ := st i hi
    obtain rfl := stores_unique (hS i hi) ha h1
    refine ⟨fun u v h => mul_left_cancel₀ h2 h, fun y => ⟨y / a, ?_⟩⟩
    change a * (y / a) = y
    field_simp

theorem demoDom_dominant : demoDom.Dominant (normSeminorm ℝ ℝ) realSolve.act (fun a => |a|) (fun i => |if i = 1 then (5 : ℝ) else 4|) (3 / 4) := by
  refine dominant_real demoDom demoDom_ok.1 realSolve (fun a x => rfl) ⟨by norm_num, by norm_num⟩ _ fun i hi => ?_
  have hi : i < 3 := hi
  interval_cases i <;> simp [Row.Stores, demoDom] <;> norm_num [abs_of_pos]

/-- Three symmetric sweeps per iteration with relaxation factor 1/2: `LoopSolver` converges with the factor `(7/8)^6`. -/
example : ∃ C, ConvergesMax (normSeminorm ℝ ℝ) (demoEnvOf demoDom (.ssor demoDom 3 (1 / 2))) (fun x i => demoDom.apply realSolve.act (extend x) i)
    (fun red maxit => loopApply (K := ℝ) (demoEnvOf demoDom (.ssor demoDom 3 (1 / 2))) red maxit) ((1 - 1 / 2 * (1 - 3 / 4)) ^ 6) C := by
  obtain ⟨h1, h2, h3, h4⟩ := demoDom_ok
  refine C97_loop realSolve_smul id (fun _ => false) h1 h2 h3 demoDom_dominant (D := realForm) (fun v => ?_) realForm_pos (by norm_num) (by norm_num)
    (k := 3) (s := 6) (by norm_num) (.inr (.inr ⟨rfl, rfl⟩)) (demoEnvOf_ok _ _) (demoEnvOf_uses _ _ fun d => ?_)
  · rw [coe_normSeminorm, Real.norm_eq_abs, sq_abs]; exact pow_two v
  · obtain ⟨M, hM⟩ := C26_sweep_preconditioners_linear realSolve realSolve_smul id (fun _ => false) demoDom h1 h2 h4 3 (1 / 2 : ℝ) _ (.inl rfl)
    exact ⟨_, hM d⟩

/-- The iteration with `SeqSOR`, `w = 1`, converges to the solution zero for each start vector, as `C97_relaxation_range` asks for. -/
example (X : Nat → Nat → ℝ) (h : Iterates realSolve id (fun _ => false) (.sor demoDom 1 1) demoDom (fun _ => 0) X) :
    ∀ i, i < demoDom.n → Filter.Tendsto (fun j => X j i) Filter.atTop (nhds 0) := by
  obtain ⟨h1, h2, h3, -⟩ := demoDom_ok
  have bound : ∀ j i, i < demoDom.n → |X j i| ≤ (1 - 1 * (1 - 3 / 4 : ℝ)) ^ j * (|X 0 0| + |X 0 1| + |X 0 2|) := by
    intro j
    induction j with
    | zero =>
      intro i hi
      have hi : i < 3 := hi
      have := abs_nonneg (X 0 0); have := abs_nonneg (X 0 1); have := abs_nonneg (X 0 2)
      interval_cases i <;> simp <;> linarith
    | succ j ih =>
      intro i hi
      obtain ⟨P', y, hy, hx⟩ := h j
      have key := C97_apply (ν := normSeminorm ℝ ℝ) (e := fun i => 0 - X j i) realSolve_smul id (fun _ => false) h1 h2 h3 demoDom_dominant one_pos le_rfl
        (k := 1) (s := 1) (.inr (.inl ⟨rfl, rfl⟩)) (fun i hi => ?_) hy (ε := (1 - 1 * (1 - 3 / 4 : ℝ)) ^ j * (|X 0 0| + |X 0 1| + |X 0 2|))
        (fun i hi => by rw [coe_normSeminorm, Real.norm_eq_abs, zero_sub, abs_neg]; exact ih i hi) i hi
      · rw [coe_normSeminorm, Real.norm_eq_abs, pow_one, ← mul_assoc, ← pow_succ'] at key
        rw [hx, Pi.add_apply, ← abs_neg]
        rwa [show -(X j i + y i) = 0 - X j i - y i by ring]
      · have := partSum_sub realSolve.act demoDom (fun _ => True) (fun _ => 0) (X j) i
        have h0 : demoDom.partSum realSolve.act (fun _ => True) (fun _ => 0) i = 0 := by
          unfold SpMat.partSum; simp
        rw [h0] at this
        exact this.symm
  intro i hi
  refine squeeze_zero_norm (fun j => bound j i hi) ?_
  have := (tendsto_pow_atTop_nhds_zero_of_lt_one (show (0 : ℝ) ≤ 1 - 1 * (1 - 3 / 4) by norm_num) (by norm_num)).mul_const (|X 0 0| + |X 0 1| + |X 0 2|)
  rwa [zero_mul] at this

end Istl
