import Verif.Props.C24

/-! # C25 — relaxation sweeps satisfy their defining splitting -/

namespace Istl
open Gsetc SpMat
variable {B X Y K : Type} [AddCommGroup X] [AddCommGroup Y] [Ring K] [Module K X]

theorem residual_low_diag_up (act : B → X →+ Y) (A : SpMat B) {i : Nat} (hS : (A.row i).Asc) {a : B}
    (ha : (A.row i).Stores i a) (x : Nat → X) (b : Y) :
    residual act ((i, a) :: (A.row i).filter fun e => decide (i < e.1)) x
      (residual act ((A.row i).takeWhile fun e => decide (e.1 < i)) x b) = b - A.apply act x i := by
  rw [takeWhile_lt hS, residual_eq, residual_eq, apply_split act A hS ha, List.map_cons, List.sum_cons, sub_sub]
  unfold SpMat.partSum
  rw [add_assoc]

theorem sorRow_ok (act : B → X →+ Y) (loc : B → X → Y → Res X) (w : K) (A : SpMat B) (b : Nat → Y) {i : Nat}
    (hS : (A.row i).Asc) {a : B} (ha : (A.row i).Stores i a) (s : (Nat → X) × X) :
    sorRow act loc w A b i s = (loc a s.2 (b i - A.apply act s.1 i) >>= fun v => .ok (upd s.1 i (s.1 i + w • v), v)) := by
  unfold sorRow
  rw [dropWhile_diag hS ha]
  simp only [residual_low_diag_up act A hS ha]

/-- `(A x)_i` with new values left of the diagonal and old values from the diagonal on. -/
theorem apply_mixed (act : B → X →+ Y) (A : SpMat B) {i : Nat} (hS : (A.row i).Asc) (x y : Nat → X) (P : Nat → Prop)
    [DecidablePred P] : A.apply act (fun j => if P j then y j else x j) i =
      A.partSum act P y i + A.partSum act (fun j => ¬ P j) x i := by
  unfold SpMat.apply SpMat.partSum
  clear hS
  induction A.row i with
  | nil => simp
  | cons e r ih =>
    by_cases h : P e.1
    · simp [h] at ih ⊢
      rw [ih, add_assoc]
    · simp [h] at ih ⊢
      rw [ih]; abel

section
variable [SMul K Y]

/-- Jacobi: D (x' - x) = w (b - A x). -/
theorem C25_dbjac (β : BlockSolve B X Y) (w : K) (hw : ∀ a x, β.act a (w • x) = w • β.act a x) (A : SpMat B)
    (hS : A.Sorted) (hD : A.HasDiag) (b : Nat → Y) (x x' : Nat → X) (h : dbjac β.act (solveLoc β) w A b x = .ok x')
    (i : Nat) (hi : i < A.n) (a : B) (ha : (A.row i).Stores i a) :
    β.act a (x' i - x i) = w • (b i - A.apply β.act x i) := by
  unfold dbjac at h
  rw [Res.bind_eq_ok] at h
  obtain ⟨v, h1, h2⟩ := h
  injection h2 with h2
  have := (forRangeM_gs id _ (fun i _ y => ∀ a, (A.row i).Stores i a → β.act a y = b i - A.apply β.act x i) A.n
    (by
      intro i hi s s' hs
      obtain ⟨a0, ha0⟩ := hD i hi
      simp only [dropWhile_diag (hS i hi) ha0, residual_low_diag_up β.act A (hS i hi) ha0] at hs
      rw [Res.bind_eq_ok] at hs
      obtain ⟨y, hy, hy2⟩ := hs
      injection hy2 with hy2
      refine ⟨y, hy2.symm, fun a ha => ?_⟩
      obtain rfl := stores_unique (hS i hi) ha ha0
      exact solveLoc_ok β hy) x v h1).2 i hi a ha
  rw [← h2]
  simp only [if_pos hi, add_sub_cancel_left, hw]
  rw [← this]
  rfl

/-- forward SOR: D (x' - x) = w (b - L x' - (D+U) x). -/
theorem C25_bsorf (β : BlockSolve B X Y) (w : K) (hw : ∀ a x, β.act a (w • x) = w • β.act a x) (A : SpMat B)
    (hS : A.Sorted) (hD : A.HasDiag) (b : Nat → Y) (x x' : Nat → X) (h : bsorf β.act (solveLoc β) w A b x = .ok x')
    (i : Nat) (hi : i < A.n) (a : B) (ha : (A.row i).Stores i a) :
    β.act a (x' i - x i) = w • (b i - A.partSum β.act (· < i) x' i - A.partSum β.act (fun j => ¬ j < i) x i) := by
  unfold bsorf at h
  rw [Res.bind_eq_ok] at h
  obtain ⟨s, h1, h2⟩ := h
  injection h2 with h2
  have := (forRangeM_gs Prod.fst _ (fun i x y => ∀ a, (A.row i).Stores i a →
      β.act a (y - x i) = w • (b i - A.apply β.act x i)) A.n
    (by
      intro i hi s s' hs
      obtain ⟨a0, ha0⟩ := hD i hi
      rw [sorRow_ok β.act _ w A b (hS i hi) ha0, Res.bind_eq_ok] at hs
      obtain ⟨y, hy, hy2⟩ := hs
      injection hy2 with hy2
      refine ⟨s.1 i + w • y, by rw [← hy2], fun a ha => ?_⟩
      obtain rfl := stores_unique (hS i hi) ha ha0
      rw [add_sub_cancel_left, hw, solveLoc_ok β hy]) _ _ h1).2 i hi a ha
  rw [← h2]
  rw [apply_mixed β.act A (hS i hi), ← sub_sub] at this
  simpa using this

/-- backward SOR: D (x' - x) = w (b - U x' - (D+L) x). -/
theorem C25_bsorb (β : BlockSolve B X Y) (w : K) (hw : ∀ a x, β.act a (w • x) = w • β.act a x) (A : SpMat B)
    (hS : A.Sorted) (hD : A.HasDiag) (b : Nat → Y) (x x' : Nat → X) (h : bsorb β.act (solveLoc β) w A b x = .ok x')
    (i : Nat) (hi : i < A.n) (a : B) (ha : (A.row i).Stores i a) :
    β.act a (x' i - x i) = w • (b i - A.partSum β.act (i < ·) x' i - A.partSum β.act (fun j => ¬ i < j) x i) := by
  unfold bsorb at h
  rw [Res.bind_eq_ok] at h
  obtain ⟨s, h1, h2⟩ := h
  injection h2 with h2
  have := (forDownM_gs Prod.fst _ (fun i x y => ∀ a, (A.row i).Stores i a →
      β.act a (y - x i) = w • (b i - A.apply β.act x i)) A.n
    (by
      intro i hi s s' hs
      obtain ⟨a0, ha0⟩ := hD i hi
      rw [sorRow_ok β.act _ w A b (hS i hi) ha0, Res.bind_eq_ok] at hs
      obtain ⟨y, hy, hy2⟩ := hs
      injection hy2 with hy2
      refine ⟨s.1 i + w • y, by rw [← hy2], fun a ha => ?_⟩
      obtain rfl := stores_unique (hS i hi) ha ha0
      rw [add_sub_cancel_left, hw, solveLoc_ok β hy]) _ _ h1).2 i hi a ha
  rw [← h2]
  rw [apply_mixed β.act A (hS i hi), ← sub_sub] at this
  simpa using this

end

/-- damped Gauss-Seidel: x' = w g + (1-w) x where (D+L) g = b - U x. -/
theorem C25_dbgs (β : BlockSolve B X Y) (w : K) (A : SpMat B) (hS : A.Sorted) (hD : A.HasDiag) (b : Nat → Y)
    (x x' : Nat → X) (h : dbgs β.act (solveLoc β) w A b x = .ok x') :
    ∃ g : Nat → X, (∀ i, i < A.n → x' i = w • g i + (1 - w) • x i) ∧
      ∀ i, i < A.n → ∀ a, (A.row i).Stores i a →
        A.partSum β.act (· < i) g i + β.act a (g i) = b i - A.partSum β.act (i < ·) x i := by
  unfold dbgs at h
  rw [Res.bind_eq_ok] at h
  obtain ⟨g, h1, h2⟩ := h
  injection h2 with h2
  refine ⟨g, fun i hi => by rw [← h2]; simp only [if_pos hi], fun i hi a ha => ?_⟩
  have := (forRangeM_gs id _ (fun i x y => ∀ a, (A.row i).Stores i a →
      β.act a y = b i - A.partSum β.act (· < i) x i - A.partSum β.act (i < ·) x i) A.n
    (by
      intro i hi s s' hs
      obtain ⟨a0, ha0⟩ := hD i hi
      simp only [dropWhile_diag (hS i hi) ha0, takeWhile_lt (hS i hi), residual_eq] at hs
      rw [Res.bind_eq_ok] at hs
      obtain ⟨y, hy, hy2⟩ := hs
      injection hy2 with hy2
      refine ⟨y, hy2.symm, fun a ha => ?_⟩
      obtain rfl := stores_unique (hS i hi) ha ha0
      exact solveLoc_ok β hy) x g h1).2 i hi a ha
  simp only [id_eq] at this
  rw [partSum_congr β.act A (· < i) i (y := g) (by intro j hj; simp [hj]),
    partSum_congr β.act A (i < ·) i (y := x) (by intro j hj; simp [Nat.not_lt.mpr (Nat.le_of_lt hj)])] at this
  rw [this]; abel

theorem Res.exists_ok_map {α β : Type} {r : Res α} (F : α → β) (h : ∃ v, r = .ok v) :
    ∃ x, (r >>= fun v => .ok (F v)) = .ok x := by
  obtain ⟨v, rfl⟩ := h
  exact ⟨F v, rfl⟩

theorem Res.throw_map {α β : Type} {r : Res α} {e : Exc} (F : α → β) (h : r = .throw e) :
    (r >>= fun v => .ok (F v)) = .throw e := by
  rw [h]; rfl

/-- Every sweep succeeds when the diagonal blocks are invertible and throws `FMatrixError` otherwise. -/
theorem C25_sweeps_succeed_iff (β : BlockSolve B X Y) (w : K) (A : SpMat B) (hS : A.Sorted) (hD : A.HasDiag)
    (b : Nat → Y) (x : Nat → X) :
    (A.DiagInvertible β.act → (∃ x', dbjac β.act (solveLoc β) w A b x = .ok x') ∧
      (∃ x', dbgs β.act (solveLoc β) w A b x = .ok x') ∧ (∃ x', bsorf β.act (solveLoc β) w A b x = .ok x') ∧
      (∃ x', bsorb β.act (solveLoc β) w A b x = .ok x')) ∧
    (¬ A.DiagInvertible β.act → dbjac β.act (solveLoc β) w A b x = .throw .fmatrixError ∧
      dbgs β.act (solveLoc β) w A b x = .throw .fmatrixError ∧ bsorf β.act (solveLoc β) w A b x = .throw .fmatrixError ∧
      bsorb β.act (solveLoc β) w A b x = .throw .fmatrixError) := by
  have hl := solveLoc_accepts β
  have hdich := diag_good hS hD fun a => Function.Bijective (β.act a)
  unfold DiagInvertible
  rw [← hdich]
  have hj := forRangeM_dich (S := Nat → X) (fun i v =>
    match (A.row i).dropWhile (fun e => decide (e.1 < i)) with
    | [] => .ub
    | dg :: up => do
      let rhs := residual β.act ((A.row i).takeWhile fun e => decide (e.1 < i)) x (b i)
      let rhs := residual β.act (dg :: up) x rhs
      let y ← solveLoc β dg.2 (v i) rhs
      .ok (upd v i y)) (fun i => ∃ a, (A.row i).Stores i a ∧ Function.Bijective (β.act a)) .fmatrixError A.n
    (by
      rintro i hi ⟨a, ha, hg⟩ s
      simp only [dropWhile_diag (hS i hi) ha]
      obtain ⟨y, hy⟩ := hl.ok a (s i) _ hg
      exact ⟨upd s i y, by rw [hy, Res.ok_bind]⟩)
    (by
      intro i hi hb s
      obtain ⟨a, ha⟩ := hD i hi
      simp only [dropWhile_diag (hS i hi) ha, hl.fail a _ _ fun hg => hb ⟨a, ha, hg⟩, Res.throw_bind]) x
  have hg := forRangeM_dich (S := Nat → X) (fun i x =>
    match (A.row i).dropWhile (fun e => decide (e.1 < i)) with
    | [] => .ub
    | dg :: up => do
      let rhs := residual β.act ((A.row i).takeWhile fun e => decide (e.1 < i)) x (b i)
      let rhs := residual β.act up x rhs
      let y ← solveLoc β dg.2 (x i) rhs
      .ok (upd x i y)) (fun i => ∃ a, (A.row i).Stores i a ∧ Function.Bijective (β.act a)) .fmatrixError A.n
    (by
      rintro i hi ⟨a, ha, hg⟩ s
      simp only [dropWhile_diag (hS i hi) ha]
      obtain ⟨y, hy⟩ := hl.ok a (s i) _ hg
      exact ⟨upd s i y, by rw [hy, Res.ok_bind]⟩)
    (by
      intro i hi hb s
      obtain ⟨a, ha⟩ := hD i hi
      simp only [dropWhile_diag (hS i hi) ha, hl.fail a _ _ fun hg => hb ⟨a, ha, hg⟩, Res.throw_bind]) x
  have hs1 : ∀ i, i < A.n → (∃ a, (A.row i).Stores i a ∧ Function.Bijective (β.act a)) → ∀ s,
      ∃ s', sorRow β.act (solveLoc β) w A b i s = .ok s' := by
    rintro i hi ⟨a, ha, hg⟩ s
    obtain ⟨y, hy⟩ := hl.ok a s.2 (b i - A.apply β.act s.1 i) hg
    exact ⟨_, by rw [sorRow_ok β.act _ w A b (hS i hi) ha, hy, Res.ok_bind]⟩
  have hs2 : ∀ i, i < A.n → ¬ (∃ a, (A.row i).Stores i a ∧ Function.Bijective (β.act a)) → ∀ s,
      sorRow β.act (solveLoc β) w A b i s = .throw .fmatrixError := by
    intro i hi hb s
    obtain ⟨a, ha⟩ := hD i hi
    rw [sorRow_ok β.act _ w A b (hS i hi) ha, hl.fail a _ _ fun hg => hb ⟨a, ha, hg⟩, Res.throw_bind]
  have hf := forRangeM_dich _ _ _ A.n hs1 hs2 (x, x 0)
  have hb := forDownM_dich _ _ _ A.n hs1 hs2 (x, x 0)
  constructor
  · intro h
    exact ⟨Res.exists_ok_map _ (hj.1 h), Res.exists_ok_map _ (hg.1 h), Res.exists_ok_map _ (hf.1 h), Res.exists_ok_map _ (hb.1 h)⟩
  · intro h
    exact ⟨Res.throw_map _ (hj.2 h), Res.throw_map _ (hg.2 h), Res.throw_map _ (hf.2 h), Res.throw_map _ (hb.2 h)⟩

/-- An exact solution of `A x = b` is left unchanged by every sweep. -/
theorem C25_exact_solution_is_fixed {Y : Type} [AddCommGroup Y] [Module K Y] (β : BlockSolve B X Y) (w : K)
    (hw : ∀ a x, β.act a (w • x) = w • β.act a x) (A : SpMat B) (hS : A.Sorted) (hD : A.HasDiag)
    (hI : A.DiagInvertible β.act) (b : Nat → Y) (x x' : Nat → X) (hx : ∀ i, i < A.n → A.apply β.act x i = b i)
    (h : dbjac β.act (solveLoc β) w A b x = .ok x' ∨ dbgs β.act (solveLoc β) w A b x = .ok x' ∨
      bsorf β.act (solveLoc β) w A b x = .ok x' ∨ bsorb β.act (solveLoc β) w A b x = .ok x') :
    ∀ i, i < A.n → x' i = x i := by
  have key : ∀ i, i < A.n → ∀ a, (A.row i).Stores i a → β.act a (x' i - x i) = 0 → x' i = x i := by
    intro i hi a ha h0
    have := (hI i hi a ha).1 (h0.trans (map_zero _).symm)
    exact sub_eq_zero.mp this
  rcases h with h | h | h | h
  · intro i hi
    obtain ⟨a, ha⟩ := hD i hi
    apply key i hi a ha
    rw [C25_dbjac β w hw A hS hD b x x' h i hi a ha, hx i hi, sub_self, smul_zero]
  · obtain ⟨g, h1, h2⟩ := C25_dbgs β w A hS hD b x x' h
    have hg : ∀ i, i < A.n → g i = x i := by
      intro i
      induction i using Nat.strong_induction_on with
      | _ i ih =>
        intro hi
        obtain ⟨a, ha⟩ := hD i hi
        apply (hI i hi a ha).1
        have e1 := h2 i hi a ha
        rw [← hx i hi, apply_split β.act A (hS i hi) ha,
          partSum_congr β.act A (· < i) i (x := g) (y := x) (fun j hj => ih j hj (by omega)), add_sub_cancel_right] at e1
        exact add_left_cancel e1
    intro i hi
    rw [h1 i hi, hg i hi, ← add_smul, add_sub_cancel, one_smul]
  · intro i
    induction i using Nat.strong_induction_on with
    | _ i ih =>
      intro hi
      obtain ⟨a, ha⟩ := hD i hi
      apply key i hi a ha
      rw [C25_bsorf β w hw A hS hD b x x' h i hi a ha,
        partSum_congr β.act A (· < i) i (x := x') (y := x) (fun j hj => ih j hj (by omega)), sub_sub,
        ← apply_mixed β.act A (hS i hi) x x (· < i)]
      simp only [ite_self, hx i hi, sub_self, smul_zero]
  · intro i hi
    obtain ⟨k, hk⟩ : ∃ k, k = A.n - i := ⟨_, rfl⟩
    induction k using Nat.strong_induction_on generalizing i with
    | _ k ih =>
      obtain ⟨a, ha⟩ := hD i hi
      apply key i hi a ha
      have hwf : ∀ j, i < j → j < A.n → x' j = x j := fun j h1 h2 => ih (A.n - j) (by omega) j h2 rfl
      have hk : ∀ j, A.n ≤ j → x' j = x j := by
        unfold bsorb at h
        rw [Res.bind_eq_ok] at h
        obtain ⟨s, h1, h2⟩ := h
        injection h2 with h2
        have := (forDownM_gs Prod.fst _ (fun _ _ _ => True) A.n
          (by
            intro i hi s s' hs
            obtain ⟨a0, ha0⟩ := hD i hi
            rw [sorRow_ok β.act _ w A b (hS i hi) ha0, Res.bind_eq_ok] at hs
            obtain ⟨y, hy, hy2⟩ := hs
            injection hy2 with hy2
            exact ⟨s.1 i + w • y, by rw [← hy2], trivial⟩) _ _ h1).1
        intro j hj
        rw [← h2, this j hj]
      rw [C25_bsorb β w hw A hS hD b x x' h i hi a ha,
        partSum_congr β.act A (i < ·) i (x := x') (y := x) (fun j hj => by
          rcases Nat.lt_or_ge j A.n with hjn | hjn
          · exact hwf j hj hjn
          · exact hk j hjn), sub_sub,
        ← apply_mixed β.act A (hS i hi) x x (i < ·)]
      simp only [ite_self, hx i hi, sub_self, smul_zero]

/-- The action of a nested matrix block on a block of numbers. -/
def nestedAct (a : SpMat ℚ) : (Nat → ℚ) →+ (Nat → ℚ) where
  toFun x i := if i < a.n then a.apply numSolve.act x i else 0
  map_zero' := by
    funext i
    simp [SpMat.apply, SpMat.partSum]
  map_add' x y := by
    funext i
    by_cases h : i < a.n
    · simp [SpMat.apply, SpMat.partSum, h, List.sum_map_add, mul_add, numSolve]
    · simp [h]

/-- At block recursion level 2 (`BL<2>`) the Jacobi sweep is *not* consistent: `dbjac` seeds the correction with a copy of `x`
and the nested sweep starts from it, so that the exact solution is moved. One 1x1 block row with the 1x1 block `2`, exact
solution `x = 3`, `b = 6`, `w = 1/2`: the sweep returns `3 + 1/2 · 3/2` instead of `3`. -/
theorem C25_level2_jacobi_counterexample :
    let inner : SpMat ℚ := { n := 1, m := 1, row := fun _ => [(0, 2)] }
    let A : SpMat (SpMat ℚ) := { n := 1, m := 1, row := fun _ => [(0, inner)] }
    A.apply nestedAct (fun _ _ => 3) 0 0 = 6 ∧
    ((dbjac nestedAct (fun a x y => dbjac numSolve.act (solveLoc numSolve) (1 / 2 : ℚ) a y x) (1 / 2 : ℚ) A
      (fun _ _ => 6) (fun _ _ => 3)) >>= fun x => .ok (x 0 0)) = .ok (15 / 4) := by
  decide +kernel

/-- The same for the forward SOR sweep: the temporary correction `v` is seeded with `x[0]`. -/
theorem C25_level2_sor_counterexample :
    let inner : SpMat ℚ := { n := 1, m := 1, row := fun _ => [(0, 2)] }
    let A : SpMat (SpMat ℚ) := { n := 1, m := 1, row := fun _ => [(0, inner)] }
    ((bsorf nestedAct (fun a x y => bsorf numSolve.act (solveLoc numSolve) (1 / 2 : ℚ) a y x) (1 / 2 : ℚ) A
      (fun _ _ => 6) (fun _ _ => 3)) >>= fun x => .ok (x 0 0)) = .ok (15 / 4) := by
  decide +kernel

/-- Non-vacuity: `demo33` meets the hypotheses and a damped sweep computes the expected numbers. -/
example : demo33.Sorted ∧ demo33.HasDiag ∧
    ((dbjac numSolve.act (solveLoc numSolve) (1 / 2 : ℚ) demo33 (fun i => [3, 5, 7].getD i 0) (fun _ => 1)) >>= fun v =>
      .ok [v 0, v 1, v 2]) = .ok [1, 1, 1] ∧
    ((bsorf numSolve.act (solveLoc numSolve) (1 : ℚ) demo33 (fun i => [2, 5, 7].getD i 0) (fun _ => 0)) >>= fun v =>
      .ok [v 0, v 1, v 2]) = .ok [1, 1, 1] :=
  ⟨demo33_sorted, demo33_diag, by decide +kernel, by decide +kernel⟩

end Istl
