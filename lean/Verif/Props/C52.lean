import Mathlib.Tactic.FieldSimp
import Verif.Lemmas.SorEnergy

/-! # C52 — relaxation sweeps for symmetric (positive definite) matrices -/

namespace Istl
open Gsetc SpMat Prec
variable {K V R : Type} [Ring R] [Field K] [LinearOrder K] [IsStrictOrderedRing K] [AddCommGroup V] [Module R V] [Module K V] {B : V → V → K}

theorem functional_zero (hB : ScalarProd B) (act : R → V →+ V) (A : SpMat R) (b : Nat → V) : A.functional B act b 0 = 0 := by
  have hD := blockDot_scalarProd hB A.n
  unfold SpMat.functional
  rw [hD.symm _ 0, hD.symm b, hD.zero, hD.zero]
  simp

/-- Forward and backward SOR sweeps with `0 < w < 2` lower the functional `x^T A x - 2 b^T x` unless `x` already solves the system. -/
theorem C52_sweep_lowers_functional (hB : ScalarProd B) (β : BlockSolve R V V) (hβ : ∀ a (c : K) x, β.act a (c • x) = c • β.act a x)
    (A : SpMat R) (hS : A.Sorted) (hD : A.HasDiag) (hA : A.Symmetric B β.act) (hP : A.PosDef B β.act) (w : K) (h0 : 0 < w) (h2 : w < 2)
    (b x x' : Nat → V) (h : bsorf β.act (solveLoc β) w A b x = .ok x' ∨ bsorb β.act (solveLoc β) w A b x = .ok x') :
    A.functional B β.act b x' ≤ A.functional B β.act b x ∧
    ((∃ i, i < A.n ∧ A.apply β.act x i ≠ b i) → A.functional B β.act b x' < A.functional B β.act b x) := by
  have key : ∀ l : List Nat, (∀ i, i ∈ l ↔ i < A.n) → ∀ s', l.foldlM (fun s i => sorRow β.act (solveLoc β) w A b i s) (x, x 0) = .ok s' →
      s'.1 = x' → A.functional B β.act b x' ≤ A.functional B β.act b x ∧
      ((∃ i, i < A.n ∧ A.apply β.act x i ≠ b i) → A.functional B β.act b x' < A.functional B β.act b x) := by
    intro l hl s' hs e
    obtain ⟨k1, k2⟩ := functional_list hB β hβ A hS hD hA hP w h0 h2 b l (fun i hi => (hl i).1 hi) _ s' hs
    rw [e] at k1 k2
    refine ⟨k1, fun ⟨i, hi, hne⟩ => lt_of_le_of_ne k1 fun he => hne ((k2 he).2 i ((hl i).2 hi))⟩
  rcases h with h | h
  · unfold bsorf forRangeM at h
    rw [Res.bind_eq_ok] at h
    obtain ⟨s', hs, e⟩ := h
    injection e with e
    exact key (List.range A.n) (fun i => List.mem_range) s' hs e
  · unfold bsorb forDownM at h
    rw [Res.bind_eq_ok] at h
    obtain ⟨s', hs, e⟩ := h
    injection e with e
    exact key (List.range A.n).reverse (fun i => by rw [List.mem_reverse, List.mem_range]) s' hs e

/-- The energy of the error differs from the functional by a constant. -/
theorem energy_eq (hB : ScalarProd B) (act : R → V →+ V) (hact : ∀ a (c : K) x, act a (c • x) = c • act a x) (A : SpMat R)
    (hA : A.Symmetric B act) (b z x : Nat → V) (hz : ∀ i, i < A.n → A.apply act z i = b i) :
    A.energy B act (z - x) = A.functional B act b x + A.energy B act z := by
  have hD := blockDot_scalarProd hB A.n
  unfold SpMat.energy SpMat.functional
  have e : A.apply act (z - x) = A.apply act z - A.apply act x := by
    rw [sub_eq_add_neg, apply_add, show -x = (-1 : K) • x by simp, apply_smul act hact]
    simp [sub_eq_add_neg]
  rw [e, hD.sub, hD.sub', hD.sub', hA x z, hD.symm x,
    blockDot_congr (x := A.apply act z) (x' := b) (y := x) (y' := x) hz (fun _ _ => rfl)]
  ring

/-- The same for the energy of the error: every sweep brings `x` closer to the exact solution `z`. -/
theorem C52_sweep_lowers_energy (hB : ScalarProd B) (β : BlockSolve R V V) (hβ : ∀ a (c : K) x, β.act a (c • x) = c • β.act a x)
    (A : SpMat R) (hS : A.Sorted) (hD : A.HasDiag) (hA : A.Symmetric B β.act) (hP : A.PosDef B β.act) (w : K) (h0 : 0 < w) (h2 : w < 2)
    (b z x x' : Nat → V) (hz : ∀ i, i < A.n → A.apply β.act z i = b i) (hne : ∃ i, i < A.n ∧ x i ≠ z i)
    (h : bsorf β.act (solveLoc β) w A b x = .ok x' ∨ bsorb β.act (solveLoc β) w A b x = .ok x') :
    A.energy B β.act (z - x') < A.energy B β.act (z - x) := by
  rw [energy_eq hB β.act hβ A hA b z x' hz, energy_eq hB β.act hβ A hA b z x hz]
  refine add_lt_add_left ((C52_sweep_lowers_functional hB β hβ A hS hD hA hP w h0 h2 b x x' h).2 ?_) _
  by_contra hc
  push Not at hc
  obtain ⟨i, hi, hne⟩ := hne
  have := hP (z - x) ⟨i, hi, fun h => hne (sub_eq_zero.1 h).symm⟩
  have e : A.apply β.act (z - x) = A.apply β.act z - A.apply β.act x := by
    rw [sub_eq_add_neg, apply_add, show -x = (-1 : K) • x by simp, apply_smul β.act hβ]
    simp [sub_eq_add_neg]
  rw [e, blockDot_congr (x' := 0) (y' := z - x) (fun j hj => by simp [hz j hj, hc j hj]) (fun _ _ => rfl),
    (blockDot_scalarProd hB A.n).zero] at this
  exact lt_irrefl _ this

/-- For a symmetric matrix, `k` backward sweeps of `SeqSOR` (the post-smoother of `AMG`) are the transpose of `k` forward sweeps (its
pre-smoother): `(F d)^T e = d^T (G e)`. No definiteness and no restriction of `w`. -/
theorem C52_sor_adjoint (hB : ScalarProd B) (β : BlockSolve R V V) (hβ : ∀ a (c : K) x, β.act a (c • x) = c • β.act a x)
    (A : SpMat R) (hS : A.Sorted) (hD : A.HasDiag) (hI : A.DiagInvertible β.act) (hA : A.Symmetric B β.act) (k : Nat) (w : K)
    (d e : Nat → V) : ∃ x y, sorDir β true A k w 0 d = .ok x ∧ sorDir β false A k w 0 e = .ok y ∧
      blockDot B A.n x e = blockDot B A.n d y := by
  obtain ⟨F, G, J, hF, hG, -, -, hadj⟩ := sweep_ops β hβ A hS hD hI w
  have hBD := blockDot_scalarProd hB A.n
  refine ⟨_, _, iterate_relax _ F A.n k _ hF d, iterate_relax _ G A.n k _ hG e, ?_⟩
  have := Amg.relaxOp_adj hBD (matOp_symm β.act hβ A hA) (hadj B hB hA).1 k (cutOp K A.n d) (cutOp K A.n e)
  rw [blockDot_congr (x' := _) (y' := cutOp K A.n e) (fun _ _ => rfl) (fun i hi => by simp [cutOp, cut, hi]), this]
  exact blockDot_congr (fun i hi => by simp [cutOp, cut, hi]) (fun _ _ => rfl)

theorem ssorStep_op {β : BlockSolve R V V} {w : K} {A : SpMat R} (M F G : Module.End K (Nat → V))
    (hF : ∀ b x, bsorf β.act (solveLoc β) w A b x = .ok (x + F (cut A.n b - M x)))
    (hG : ∀ b x, bsorb β.act (solveLoc β) w A b x = .ok (x + G (cut A.n b - M x))) (b x : Nat → V) :
    ssorStep β w A b x = .ok (x + (F + G - G * M * F) (cut A.n b - M x)) := by
  unfold ssorStep
  rw [hF, Res.ok_bind, hG]
  congr 1
  simp only [LinearMap.add_apply, LinearMap.sub_apply, Module.End.mul_apply, map_add, map_sub]
  abel

/-- For a symmetric matrix, `SeqSSOR` and `SeqJac` are symmetric operators, for every number of steps and every relaxation factor. -/
theorem C52_ssor_jacobi_symmetric (hB : ScalarProd B) (β : BlockSolve R V V) (hβ : ∀ a (c : K) x, β.act a (c • x) = c • β.act a x)
    (tr : R → R) (nid : K → Bool) (A : SpMat R) (hS : A.Sorted) (hD : A.HasDiag) (hI : A.DiagInvertible β.act) (hA : A.Symmetric B β.act)
    (k : Nat) (w : K) (P : Obj R K) (hP : P = .ssor A k w ∨ P = .jac A k w) (d e : Nat → V) :
    ∃ x y, Prec.apply β tr nid P 0 d = .ok (P, x) ∧ Prec.apply β tr nid P 0 e = .ok (P, y) ∧
      blockDot B A.n x e = blockDot B A.n d y := by
  obtain ⟨F, G, J, hF, hG, hJ, -, hadj⟩ := sweep_ops β hβ A hS hD hI w
  obtain ⟨hFG, hJJ⟩ := hadj B hB hA
  have hBD := blockDot_scalarProd hB A.n
  have hM := matOp_symm β.act hβ A hA
  have fin : ∀ T : Module.End K (Nat → V), Adjoint (blockDot B A.n) T T →
      blockDot B A.n (Amg.relaxOp (matOp β.act hβ A) T k (cutOp K A.n d)) e =
        blockDot B A.n d (Amg.relaxOp (matOp β.act hβ A) T k (cutOp K A.n e)) := by
    intro T hT
    have := Amg.relaxOp_adj hBD hM hT k (cutOp K A.n d) (cutOp K A.n e)
    rw [blockDot_congr (x' := _) (y' := cutOp K A.n e) (fun _ _ => rfl) (fun i hi => by simp [cutOp, cut, hi]), this]
    exact blockDot_congr (fun i hi => by simp [cutOp, cut, hi]) (fun _ _ => rfl)
  rcases hP with rfl | rfl
  · refine ⟨_, _, ?_, ?_, fin (F + G - G * matOp β.act hβ A * F) ?_⟩
    · dsimp only [Prec.apply]
      rw [iterate_relax _ _ A.n k _ (ssorStep_op (matOp β.act hβ A) F G hF hG) d]; rfl
    · dsimp only [Prec.apply]
      rw [iterate_relax _ _ A.n k _ (ssorStep_op (matOp β.act hβ A) F G hF hG) e]; rfl
    · refine (Adjoint.sub hBD (Adjoint.add hBD hFG (hFG.symm hBD)) (((hFG.symm hBD).mul hM).mul hFG)).congr ?_
      rw [add_comm F G, mul_assoc]
  · refine ⟨_, _, ?_, ?_, fin J hJJ⟩
    · dsimp only [Prec.apply]
      rw [iterate_relax _ _ A.n k _ hJ d]; rfl
    · dsimp only [Prec.apply]
      rw [iterate_relax _ _ A.n k _ hJ e]; rfl

/-- A positive number of decreasing steps from `0` gives `d^T x > 0`. -/
theorem positive_of_steps (hB : ScalarProd B) (act : R → V →+ V) (A : SpMat R) (hP : A.PosDef B act) (d : Nat → V)
    (hd : ∃ i, i < A.n ∧ d i ≠ 0) (f : (Nat → V) → Res (Nat → V))
    (hf : ∀ x x', f x = .ok x' → A.functional B act d x' ≤ A.functional B act d x ∧
      ((∃ i, i < A.n ∧ A.apply act x i ≠ d i) → A.functional B act d x' < A.functional B act d x)) (k : Nat) (hk : 0 < k) (x : Nat → V)
    (h : iterate k f 0 = .ok x) : 0 < blockDot B A.n d x := by
  obtain ⟨s, s0, sk, hs⟩ := iterate_seq k f 0 x h
  have mono : ∀ j, j < k → A.functional B act d (s (j + 1)) < 0 := by
    intro j
    induction j with
    | zero =>
      intro hj
      have := (hf _ _ (hs 0 hj)).2
      rw [s0, functional_zero hB] at this
      apply this
      obtain ⟨i, hi, hne⟩ := hd
      refine ⟨i, hi, fun h => hne ?_⟩
      rw [← h]
      simp [SpMat.apply, SpMat.partSum]
    | succ j ih =>
      intro hj
      exact lt_of_le_of_lt (hf _ _ (hs (j + 1) hj)).1 (ih (by omega))
  have := mono (k - 1) (by omega)
  rw [show k - 1 + 1 = k by omega, sk] at this
  unfold SpMat.functional at this
  have : 0 ≤ blockDot B A.n (A.apply act x) x := by
    by_cases hx : ∃ i, i < A.n ∧ x i ≠ 0
    · exact (hP x hx).le
    · push Not at hx
      rw [(blockDot_scalarProd hB A.n).symm, blockDot_congr (x' := 0) (y' := A.apply act x) hx (fun _ _ => rfl),
        (blockDot_scalarProd hB A.n).zero]
  linarith

/-- For a symmetric positive definite matrix and `0 < w < 2`, `SeqSSOR` and `SeqSOR` are positive definite: `d^T (M^{-1} d) > 0` for every
`d ≠ 0`. -/
theorem C52_positive (hB : ScalarProd B) (β : BlockSolve R V V) (hβ : ∀ a (c : K) x, β.act a (c • x) = c • β.act a x)
    (tr : R → R) (nid : K → Bool) (A : SpMat R) (hS : A.Sorted) (hD : A.HasDiag) (hA : A.Symmetric B β.act) (hPD : A.PosDef B β.act)
    (k : Nat) (hk : 0 < k) (w : K) (h0 : 0 < w) (h2 : w < 2) (P P' : Obj R K) (hP : P = .ssor A k w ∨ P = .sor A k w) (d x : Nat → V)
    (hd : ∃ i, i < A.n ∧ d i ≠ 0) (h : Prec.apply β tr nid P 0 d = .ok (P', x)) : 0 < blockDot B A.n d x := by
  have sw := fun x x' => C52_sweep_lowers_functional hB β hβ A hS hD hA hPD w h0 h2 d x x'
  rcases hP with rfl | rfl
  · dsimp only [Prec.apply] at h
    rw [Res.bind_eq_ok] at h
    obtain ⟨x', hx', h⟩ := h
    injection h with h; injection h with _ h; subst h
    refine positive_of_steps hB β.act A hPD d hd _ ?_ k hk x' hx'
    intro y y' hy
    unfold ssorStep at hy
    rw [Res.bind_eq_ok] at hy
    obtain ⟨z, hz, hy⟩ := hy
    obtain ⟨p1, p2⟩ := sw y z (.inl hz)
    obtain ⟨q1, -⟩ := sw z y' (.inr hy)
    exact ⟨q1.trans p1, fun h => lt_of_le_of_lt q1 (p2 h)⟩
  · dsimp only [Prec.apply, sorDir] at h
    rw [Res.bind_eq_ok] at h
    obtain ⟨x', hx', h⟩ := h
    injection h with h; injection h with _ h; subst h
    rw [if_pos rfl] at hx'
    exact positive_of_steps hB β.act A hPD d hd _ (fun y y' hy => sw y y' (.inl hy)) k hk x' hx'

/-- `SeqSOR` as a smoother of `AMG` on one level with a symmetric positive definite matrix: the forward sweeps `S1` (pre-smoother) and the
backward sweeps `S2` (post-smoother) meet what `SpdHierarchy` (C51) asks of the smoothers. -/
theorem C52_amg_smoother (hB : ScalarProd B) (β : BlockSolve R V V) (hβ : ∀ a (c : K) x, β.act a (c • x) = c • β.act a x)
    (A : SpMat R) (hS : A.Sorted) (hD : A.HasDiag) (hI : A.DiagInvertible β.act) (hA : A.Symmetric B β.act) (hP : A.PosDef B β.act)
    (k : Nat) (hk : 0 < k) (w : K) (h0 : 0 < w) (h2 : w < 2) :
    ∃ M S1 S2 : Module.End K (Nat → V),
      (∀ x i, i < A.n → M x i = A.apply β.act x i) ∧
      (∀ d, sorDir β true A k w 0 d = .ok (S1 d)) ∧ (∀ d, sorDir β false A k w 0 d = .ok (S2 d)) ∧
      (∀ d i, A.n ≤ i → M d i = 0 ∧ S1 d i = 0 ∧ S2 d i = 0) ∧
      Adjoint (blockDot B A.n) M M ∧ Adjoint (blockDot B A.n) S1 S2 ∧
      (∀ x, (∀ i, A.n ≤ i → x i = 0) → x ≠ 0 →
        blockDot B A.n (M (x - S1 (M x))) (x - S1 (M x)) < blockDot B A.n (M x) x) := by
  obtain ⟨F, G, J, hF, hG, -, hz, hadj⟩ := sweep_ops β hβ A hS hD hI w
  have hBD := blockDot_scalarProd hB A.n
  have hM := matOp_symm β.act hβ A hA
  have hS1 : ∀ d, sorDir β true A k w 0 d = .ok ((Amg.relaxOp (matOp β.act hβ A) F k * cutOp K A.n : Module.End K (Nat → V)) d) :=
    fun d => iterate_relax _ F A.n k _ hF d
  have hS2 : ∀ d, sorDir β false A k w 0 d = .ok ((Amg.relaxOp (matOp β.act hβ A) G k * cutOp K A.n : Module.End K (Nat → V)) d) :=
    fun d => iterate_relax _ G A.n k _ hG d
  have zr : ∀ T : Module.End K (Nat → V), (∀ d i, A.n ≤ i → T d i = 0) → ∀ k d i, A.n ≤ i → Amg.relaxOp (matOp β.act hβ A) T k d i = 0 := by
    intro T hT k
    induction k with
    | zero => intro d i _; rfl
    | succ k ih =>
      intro d i hi
      have pw : ∀ j (y : Nat → V), (∀ i, A.n ≤ i → y i = 0) → ∀ i, A.n ≤ i → ((1 - T * matOp β.act hβ A) ^ j : Module.End K (Nat → V)) y i = 0 := by
        intro j
        induction j with
        | zero => intro y hy i hi; simpa using hy i hi
        | succ j ih =>
          intro y hy i hi
          rw [pow_succ, Module.End.mul_apply]
          refine ih _ (fun i hi => ?_) i hi
          simp [hy i hi, hT _ i hi]
      simp only [Amg.relaxOp, LinearMap.add_apply, Pi.add_apply, ih d i hi, zero_add, Module.End.mul_apply]
      exact pw k _ (fun i hi => hT d i hi) i hi
  have cs := cutOp_symm (B := B) (K := K) A.n
  refine ⟨matOp β.act hβ A, Amg.relaxOp (matOp β.act hβ A) F k * cutOp K A.n, Amg.relaxOp (matOp β.act hβ A) G k * cutOp K A.n,
    fun x i hi => by simp [matOp, hi], hS1, hS2, ?_, hM, ?_, ?_⟩
  · intro d i hi
    refine ⟨by simp [matOp, show ¬ i < A.n by omega], zr F (fun d i hi => (hz d i hi).1) k _ i hi,
      zr G (fun d i hi => (hz d i hi).2.1) k _ i hi⟩
  · intro x y
    have := Amg.relaxOp_adj hBD hM (hadj B hB hA).1 k (cutOp K A.n x) (cutOp K A.n y)
    rw [Module.End.mul_apply, Module.End.mul_apply,
      blockDot_congr (x' := _) (y' := cutOp K A.n y) (fun _ _ => rfl) (fun i hi => by simp [cutOp, cut, hi]), this]
    exact blockDot_congr (fun i hi => by simp [cutOp, cut, hi]) (fun _ _ => rfl)
  · intro x hx hne
    have hne' : ∃ i, i < A.n ∧ x i ≠ 0 := by
      by_contra hc
      push Not at hc
      apply hne
      funext i
      by_cases hi : i < A.n
      · exact hc i hi
      · exact hx i (by omega)
    have hr := hS1 (matOp β.act hβ A x)
    generalize (Amg.relaxOp (matOp β.act hβ A) F k * cutOp K A.n : Module.End K (Nat → V)) (matOp β.act hβ A x) = y at hr ⊢
    have em : ∀ u v, blockDot B A.n (matOp β.act hβ A u) v = blockDot B A.n (A.apply β.act u) v := fun u v =>
      blockDot_congr (fun i hi => by simp [matOp, hi]) (fun _ _ => rfl)
    rw [em, em]
    have hb : ∀ i, i < A.n → A.apply β.act x i = matOp β.act hβ A x i := fun i hi => by simp [matOp, hi]
    have e1 := energy_eq hB β.act hβ A hA (matOp β.act hβ A x) x y hb
    unfold SpMat.energy at e1
    rw [e1]
    have sw := fun u v => C52_sweep_lowers_functional hB β hβ A hS hD hA hP w h0 h2 (matOp β.act hβ A x) u v
    dsimp only [sorDir] at hr
    rw [if_pos rfl] at hr
    obtain ⟨s, s0, sk, hs⟩ := iterate_seq k _ 0 y hr
    have mono : ∀ j, j < k → A.functional B β.act (matOp β.act hβ A x) (s (j + 1)) < 0 := by
      intro j
      induction j with
      | zero =>
        intro hj
        have := (sw _ _ (.inl (hs 0 hj))).2
        rw [s0, functional_zero hB] at this
        apply this
        by_contra hc
        push Not at hc
        have hp := hP x hne'
        rw [blockDot_congr (x' := 0) (y' := x) (fun j hj => by
          rw [hb j hj, ← hc j hj]; simp [SpMat.apply, SpMat.partSum]) (fun _ _ => rfl), hBD.zero] at hp
        exact lt_irrefl _ hp
      | succ j ih => intro hj; exact lt_of_le_of_lt (sw _ _ (.inl (hs (j + 1) hj))).1 (ih (by omega))
    have := mono (k - 1) (by omega)
    rw [show k - 1 + 1 = k by omega, sk] at this
    linarith

/-! ### The hypotheses hold for the matrix of the one-dimensional Laplacian -/

def demoLap : SpMat ℚ :=
  { n := 3, m := 3, row := fun i => match i with | 0 => [(0, 2), (1, -1)] | 1 => [(0, -1), (1, 2), (2, -1)] | 2 => [(1, -1), (2, 2)] | _ => [] }

/-- the scalar product of numbers -/
def mulForm : ℚ → ℚ → ℚ := fun x y => x * y

theorem mulForm_ok : ScalarProd mulForm := ⟨fun x y => mul_comm x y, fun x y z => add_mul x y z, fun c x z => by simp [mulForm, mul_assoc]⟩

theorem demoLap_ok : demoLap.Sorted ∧ demoLap.HasDiag ∧ demoLap.DiagInvertible numSolve.act ∧ demoLap.Symmetric mulForm numSolve.act ∧
    demoLap.PosDef mulForm numSolve.act := by
  refine ⟨?_, ?_, ?_, ?_, ?_⟩
  · intro i hi
    have hi : i < 3 := hi
    interval_cases i <;> simp [demoLap, Row.Asc]
  · intro i hi
    have hi : i < 3 := hi
    interval_cases i <;> exact ⟨2, by simp [demoLap, Row.Stores]⟩
  · intro i hi a ha
    have hi : i < 3 := hi
    have : a = 2 := by
      interval_cases i <;> simpa [demoLap, Row.Stores] using ha
    subst this
    exact ⟨fun x y h => by simpa [numSolve] using h, fun y => ⟨y / 2, by simp [numSolve]; ring⟩⟩
  · intro x y
    simp [blockDot, demoLap, Finset.sum_range_succ, SpMat.apply, SpMat.partSum, mulForm, numSolve]
    ring
  · intro x hx
    have e : blockDot mulForm demoLap.n (demoLap.apply numSolve.act x) x = x 0 ^ 2 + (x 0 - x 1) ^ 2 + (x 1 - x 2) ^ 2 + x 2 ^ 2 := by
      simp [blockDot, demoLap, Finset.sum_range_succ, SpMat.apply, SpMat.partSum, mulForm, numSolve]
      ring
    rw [e]
    by_contra hc
    push Not at hc
    have s0 := sq_nonneg (x 0)
    have s1 := sq_nonneg (x 0 - x 1)
    have s2 := sq_nonneg (x 1 - x 2)
    have s3 := sq_nonneg (x 2)
    have z0 : x 0 = 0 := by have : x 0 ^ 2 = 0 := by linarith
                            simpa using this
    have z2 : x 2 = 0 := by have : x 2 ^ 2 = 0 := by linarith
                            simpa using this
    have z1 : x 1 = 0 := by have : (x 0 - x 1) ^ 2 = 0 := by linarith
                            rw [z0] at this
                            simpa using this
    obtain ⟨i, hi, hne⟩ := hx
    have hi : i < 3 := hi
    interval_cases i <;> contradiction

/-- a forward sweep with over-relaxation 3/2 that changes the vector -/
example : (match bsorf numSolve.act (solveLoc numSolve) (3 / 2 : ℚ) demoLap (fun _ => 1) (fun _ => 0) with
  | .ok s => some [s 0, s 1, s 2]
  | _ => none) = some [3 / 4, 21 / 16, 111 / 64] := by
  decide +kernel

end Istl
