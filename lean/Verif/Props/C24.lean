import Verif.Lemmas.Gsetc
import Verif.Props.C01
import Mathlib.Algebra.Field.Rat
import Mathlib.Algebra.Module.Rat

/-! # C24 — triangular and diagonal block solves -/

namespace Istl
open Gsetc SpMat
variable {B X Y K : Type} [AddCommGroup X] [AddCommGroup Y]

/-- any local solver: row `i` of the result is what the local solver returns for the diagonal block and the right hand side
reduced by the earlier rows -/
theorem bltsolve_rel (act : B → X →+ Y) (loc : B → X → Y → Res X) (A : SpMat B) (hS : A.Sorted) (hD : A.HasDiag)
    (d : Nat → Y) (v v' : Nat → X) (h : bltsolve act loc A d v = .ok v') :
    (∀ k, A.n ≤ k → v' k = v k) ∧
    ∀ i, i < A.n → ∀ a, (A.row i).Stores i a → loc a (v i) (d i - A.partSum act (· < i) v' i) = .ok (v' i) := by
  have := forRangeM_gs id _ (fun i x y => ∀ a, (A.row i).Stores i a → loc a (x i) (d i - A.partSum act (· < i) x i) = .ok y)
    A.n ?_ v v' h
  · refine ⟨this.1, fun i hi a ha => ?_⟩
    have h2 := this.2 i hi a ha
    simp only [id_eq, lt_irrefl, if_false] at h2
    rw [partSum_congr act A (· < i) (x := v') (y := fun j => if j < i then v' j else v j) i (by intro j hj; simp [hj])]
    exact h2
  · intro i hi s s' hs
    obtain ⟨a0, ha0⟩ := hD i hi
    simp only [dropWhile_diag (hS i hi) ha0, takeWhile_lt (hS i hi), residual_eq] at hs
    rw [Res.bind_eq_ok] at hs
    obtain ⟨y, hy, hy2⟩ := hs
    refine ⟨y, ?_, ?_⟩
    · simp only [id_eq]; injection hy2 with hy2; exact hy2.symm
    · intro a ha
      obtain rfl := stores_unique (hS i hi) ha ha0
      exact hy

theorem butsolve_rel (act : B → X →+ Y) (loc : B → X → Y → Res X) (A : SpMat B) (hS : A.Sorted) (hD : A.HasDiag)
    (d : Nat → Y) (v v' : Nat → X) (h : butsolve act loc A d v = .ok v') :
    (∀ k, A.n ≤ k → v' k = v k) ∧
    ∀ i, i < A.n → ∀ a, (A.row i).Stores i a → loc a (v i) (d i - A.partSum act (i < ·) v' i) = .ok (v' i) := by
  have := forDownM_gs id _ (fun i x y => ∀ a, (A.row i).Stores i a → loc a (x i) (d i - A.partSum act (i < ·) x i) = .ok y)
    A.n ?_ v v' h
  · refine ⟨this.1, fun i hi a ha => ?_⟩
    have h2 := this.2 i hi a ha
    simp only [id_eq, lt_irrefl, if_false] at h2
    rw [partSum_congr act A (i < ·) (x := v') (y := fun j => if i < j then v' j else v j) i (by intro j hj; simp [hj])]
    exact h2
  · intro i hi s s' hs
    obtain ⟨a0, ha0⟩ := hD i hi
    simp only [(reverse_take (hS i hi) ha0).1, (reverse_take (hS i hi) ha0).2, residual_eq] at hs
    rw [Res.bind_eq_ok] at hs
    obtain ⟨y, hy, hy2⟩ := hs
    refine ⟨y, ?_, ?_⟩
    · simp only [id_eq]; injection hy2 with hy2; exact hy2.symm
    · intro a ha
      obtain rfl := stores_unique (hS i hi) ha ha0
      rw [List.map_reverse, List.sum_reverse] at hy
      exact hy

/-- `find` on the diagonal. -/
theorem find_diag (r : Row B) (hr : r.Asc) {i : Nat} {a : B} (ha : r.Stores i a) :
    ∃ q, r.find i = .ok (some q) ∧ rd r q = .ok (i, a) := by
  obtain ⟨q, hq, hqe⟩ := List.getElem_of_mem ha
  refine ⟨q, ((C01_find_exact r hr i).1 q).mpr ⟨a, by rw [List.getElem?_eq_getElem hq, hqe]⟩, ?_⟩
  rw [rd_eq _ _ hq, hqe]

theorem bdsolve_rel (loc : B → X → Y → Res X) (A : SpMat B) (hS : A.Sorted) (hD : A.HasDiag)
    (d : Nat → Y) (v v' : Nat → X) (h : bdsolve loc A d v = .ok v') :
    (∀ k, A.n ≤ k → v' k = v k) ∧ ∀ i, i < A.n → ∀ a, (A.row i).Stores i a → loc a (v i) (d i) = .ok (v' i) := by
  have := forDownM_gs id _ (fun i x y => ∀ a, (A.row i).Stores i a → loc a (x i) (d i) = .ok y) A.n ?_ v v' h
  · refine ⟨this.1, fun i hi a ha => ?_⟩
    have h2 := this.2 i hi a ha
    simpa using h2
  · intro i hi s s' hs
    obtain ⟨a0, ha0⟩ := hD i hi
    obtain ⟨q, h1, h2⟩ := find_diag _ (hS i hi) ha0
    simp only [h1, h2, Res.ok_bind] at hs
    rw [Res.bind_eq_ok] at hs
    obtain ⟨y, hy, hy2⟩ := hs
    refine ⟨y, ?_, ?_⟩
    · simp only [id_eq]; injection hy2 with hy2; exact hy2.symm
    · intro a ha
      obtain rfl := stores_unique (hS i hi) ha ha0
      exact hy

/-- The local solver accepts exactly the blocks in `good`. -/
structure Accepts (loc : B → X → Y → Res X) (good : B → Prop) : Prop where
  ok : ∀ a x y, good a → ∃ x', loc a x y = .ok x'
  fail : ∀ a x y, ¬ good a → loc a x y = .throw .fmatrixError

theorem solveLoc_accepts (β : BlockSolve B X Y) : Accepts (solveLoc β) fun a => Function.Bijective (β.act a) := by
  constructor
  · intro a x y h
    obtain ⟨z, hz⟩ := h.2 y
    have := (β.solve_iff a y z).mpr ⟨h, hz⟩
    exact ⟨z, by simp [solveLoc, this]⟩
  · intro a x y h
    cases hs : β.solve a y with
    | none => simp [solveLoc, hs]
    | some z => exact absurd ((β.solve_iff a y z).mp hs).1 h

theorem solveLoc_ok (β : BlockSolve B X Y) {a : B} {x : X} {y : Y} {x' : X} (h : solveLoc β a x y = .ok x') : β.act a x' = y := by
  unfold solveLoc at h
  cases hs : β.solve a y with
  | none => simp [hs] at h
  | some z =>
    simp only [hs] at h
    injection h with h
    subst h
    exact ((β.solve_iff a y z).mp hs).2

theorem solveRelax_accepts [SMul K X] (β : BlockSolve B X Y) (w : K) :
    Accepts (solveRelaxLoc β w) fun a => Function.Bijective (β.act a) := by
  constructor
  · intro a x y h
    obtain ⟨x', hx⟩ := (solveLoc_accepts β).ok a x y h
    exact ⟨w • x', by simp [solveRelaxLoc, hx]⟩
  · intro a x y h
    simp [solveRelaxLoc, (solveLoc_accepts β).fail a x y h]

theorem diag_good {A : SpMat B} (hS : A.Sorted) (hD : A.HasDiag) (good : B → Prop) :
    (∀ i, i < A.n → ∃ a, (A.row i).Stores i a ∧ good a) ↔ ∀ i, i < A.n → ∀ a, (A.row i).Stores i a → good a := by
  constructor
  · intro h i hi a ha
    obtain ⟨b, hb, hg⟩ := h i hi
    exact stores_unique (hS i hi) hb ha ▸ hg
  · intro h i hi
    obtain ⟨a, ha⟩ := hD i hi
    exact ⟨a, ha, h i hi a ha⟩

theorem btsolve_accepts (act : B → X →+ Y) (loc : B → X → Y → Res X) (good : B → Prop) (hl : Accepts loc good) (A : SpMat B)
    (hS : A.Sorted) (hD : A.HasDiag) (d : Nat → Y) (v : Nat → X) :
    (((∀ i, i < A.n → ∀ a, (A.row i).Stores i a → good a) → ∃ v', bltsolve act loc A d v = .ok v') ∧
    (¬ (∀ i, i < A.n → ∀ a, (A.row i).Stores i a → good a) → bltsolve act loc A d v = .throw .fmatrixError)) ∧
    (((∀ i, i < A.n → ∀ a, (A.row i).Stores i a → good a) → ∃ v', butsolve act loc A d v = .ok v') ∧
    (¬ (∀ i, i < A.n → ∀ a, (A.row i).Stores i a → good a) → butsolve act loc A d v = .throw .fmatrixError)) ∧
    (((∀ i, i < A.n → ∀ a, (A.row i).Stores i a → good a) → ∃ v', bdsolve loc A d v = .ok v') ∧
    (¬ (∀ i, i < A.n → ∀ a, (A.row i).Stores i a → good a) → bdsolve loc A d v = .throw .fmatrixError)) := by
  rw [← diag_good hS hD]
  refine ⟨?_, ?_, ?_⟩
  · refine forRangeM_dich _ (fun i => ∃ a, (A.row i).Stores i a ∧ good a) .fmatrixError A.n ?_ ?_ v
    · rintro i hi ⟨a, ha, hg⟩ s
      obtain ⟨y, hy⟩ := hl.ok a (s i) (d i - (((A.row i).filter fun e => decide (e.1 < i)).map fun e => act e.2 (s e.1)).sum) hg
      exact ⟨upd s i y, by simp only [dropWhile_diag (hS i hi) ha, takeWhile_lt (hS i hi), residual_eq, hy, Res.ok_bind]⟩
    · intro i hi hb s
      obtain ⟨a, ha⟩ := hD i hi
      simp only [dropWhile_diag (hS i hi) ha, hl.fail a _ _ fun hg => hb ⟨a, ha, hg⟩, Res.throw_bind]
  · refine forDownM_dich _ (fun i => ∃ a, (A.row i).Stores i a ∧ good a) .fmatrixError A.n ?_ ?_ v
    · rintro i hi ⟨a, ha, hg⟩ s
      obtain ⟨h1, h2⟩ := reverse_take (hS i hi) ha
      simp only [h1, h2, residual_eq]
      obtain ⟨y, hy⟩ := hl.ok a (s i) (d i - (((A.row i).filter fun e => decide (i < e.1)).reverse.map fun e => act e.2 (s e.1)).sum) hg
      exact ⟨upd s i y, by rw [hy, Res.ok_bind]⟩
    · intro i hi hb s
      obtain ⟨a, ha⟩ := hD i hi
      simp only [(reverse_take (hS i hi) ha).2, hl.fail a _ _ fun hg => hb ⟨a, ha, hg⟩, Res.throw_bind]
  · refine forDownM_dich _ (fun i => ∃ a, (A.row i).Stores i a ∧ good a) .fmatrixError A.n ?_ ?_ v
    · rintro i hi ⟨a, ha, hg⟩ s
      obtain ⟨q, h1, h2⟩ := find_diag _ (hS i hi) ha
      obtain ⟨y, hy⟩ := hl.ok a (s i) (d i) hg
      exact ⟨upd s i y, by simp only [h1, h2, Res.ok_bind, hy]⟩
    · intro i hi hb s
      obtain ⟨a, ha⟩ := hD i hi
      obtain ⟨q, h1, h2⟩ := find_diag _ (hS i hi) ha
      simp only [h1, h2, Res.ok_bind, hl.fail a _ _ fun hg => hb ⟨a, ha, hg⟩, Res.throw_bind]

/-- All five kernels succeed when the diagonal blocks are invertible and throw `FMatrixError` otherwise; they are never
undefined on a matrix with a stored diagonal. -/
theorem C24_succeeds_iff_diagonal_invertible (β : BlockSolve B X Y) (A : SpMat B) (hS : A.Sorted) (hD : A.HasDiag)
    (d : Nat → Y) (v : Nat → X) :
    (A.DiagInvertible β.act → (∃ v', bltsolve β.act (solveLoc β) A d v = .ok v') ∧
      (∃ v', butsolve β.act (solveLoc β) A d v = .ok v') ∧ ∃ v', bdsolve (solveLoc β) A d v = .ok v') ∧
    (¬ A.DiagInvertible β.act → bltsolve β.act (solveLoc β) A d v = .throw .fmatrixError ∧
      butsolve β.act (solveLoc β) A d v = .throw .fmatrixError ∧ bdsolve (solveLoc β) A d v = .throw .fmatrixError) := by
  obtain ⟨⟨a1, a2⟩, ⟨b1, b2⟩, c1, c2⟩ := btsolve_accepts β.act (solveLoc β) _ (solveLoc_accepts β) A hS hD d v
  exact ⟨fun h => ⟨a1 h, b1 h, c1 h⟩, fun h => ⟨a2 h, b2 h, c2 h⟩⟩

/-- `bltsolve`: (D+L) v = d. -/
theorem C24_bltsolve (β : BlockSolve B X Y) (A : SpMat B) (hS : A.Sorted) (hD : A.HasDiag) (d : Nat → Y) (v v' : Nat → X)
    (h : bltsolve β.act (solveLoc β) A d v = .ok v') (i : Nat) (hi : i < A.n) (a : B) (ha : (A.row i).Stores i a) :
    A.partSum β.act (· < i) v' i + β.act a (v' i) = d i := by
  rw [solveLoc_ok β ((bltsolve_rel _ _ A hS hD d v v' h).2 i hi a ha), add_sub_cancel]

/-- The solution is unique, so the kernels return *the* solution: the initial content of `v` does not matter. -/
theorem C24_bltsolve_unique (β : BlockSolve B X Y) (A : SpMat B) (hS : A.Sorted) (hD : A.HasDiag) (d : Nat → Y)
    (v v' u : Nat → X) (h : bltsolve β.act (solveLoc β) A d v = .ok v')
    (hu : ∀ i, i < A.n → ∀ a, (A.row i).Stores i a → A.partSum β.act (· < i) u i + β.act a (u i) = d i) :
    ∀ i, i < A.n → u i = v' i := by
  have hinv : A.DiagInvertible β.act := by
    by_contra hc
    rw [((C24_succeeds_iff_diagonal_invertible β A hS hD d v).2 hc).1] at h
    cases h
  intro i
  induction i using Nat.strong_induction_on with
  | _ i ih =>
    intro hi
    obtain ⟨a, ha⟩ := hD i hi
    apply (hinv i hi a ha).1
    have h1 := hu i hi a ha
    have h2 := C24_bltsolve β A hS hD d v v' h i hi a ha
    rw [partSum_congr β.act A (· < i) i (x := u) (y := v') (fun j hj => ih j hj (by omega)), ← h2] at h1
    exact add_left_cancel h1

/-- `butsolve`: (D+U) v = d. -/
theorem C24_butsolve (β : BlockSolve B X Y) (A : SpMat B) (hS : A.Sorted) (hD : A.HasDiag) (d : Nat → Y) (v v' : Nat → X)
    (h : butsolve β.act (solveLoc β) A d v = .ok v') (i : Nat) (hi : i < A.n) (a : B) (ha : (A.row i).Stores i a) :
    A.partSum β.act (i < ·) v' i + β.act a (v' i) = d i := by
  rw [solveLoc_ok β ((butsolve_rel _ _ A hS hD d v v' h).2 i hi a ha), add_sub_cancel]

/-- `bdsolve`: D v = d. -/
theorem C24_bdsolve (β : BlockSolve B X Y) (A : SpMat B) (hS : A.Sorted) (hD : A.HasDiag) (d : Nat → Y) (v v' : Nat → X)
    (h : bdsolve (solveLoc β) A d v = .ok v') (i : Nat) (hi : i < A.n) (a : B) (ha : (A.row i).Stores i a) :
    β.act a (v' i) = d i :=
  solveLoc_ok β ((bdsolve_rel _ A hS hD d v v' h).2 i hi a ha)

/-- `ubltsolve`: (I+L) v = d, always succeeding. -/
theorem C24_ubltsolve (act : B → X →+ X) (A : SpMat B) (hS : A.Sorted) (hD : A.HasDiag) (d v : Nat → X) :
    ∃ v', bltsolve act copyLoc A d v = .ok v' ∧ ∀ i, i < A.n → v' i + A.partSum act (· < i) v' i = d i := by
  obtain ⟨⟨a, -⟩, -⟩ := btsolve_accepts act copyLoc (fun _ => True)
    ⟨fun a x y _ => ⟨y, rfl⟩, fun a x y h => absurd trivial h⟩ A hS hD d v
  obtain ⟨v', h⟩ := a fun _ _ _ _ => trivial
  refine ⟨v', h, fun i hi => ?_⟩
  obtain ⟨b, hb⟩ := hD i hi
  have := (bltsolve_rel _ _ A hS hD d v v' h).2 i hi b hb
  simp only [copyLoc, Res.ok.injEq] at this
  rw [← this, sub_add_cancel]

/-- `ubutsolve`: (I+U) v = d, always succeeding. -/
theorem C24_ubutsolve (act : B → X →+ X) (A : SpMat B) (hS : A.Sorted) (hD : A.HasDiag) (d v : Nat → X) :
    ∃ v', butsolve act copyLoc A d v = .ok v' ∧ ∀ i, i < A.n → v' i + A.partSum act (i < ·) v' i = d i := by
  obtain ⟨-, ⟨a, -⟩, -⟩ := btsolve_accepts act copyLoc (fun _ => True)
    ⟨fun a x y _ => ⟨y, rfl⟩, fun a x y h => absurd trivial h⟩ A hS hD d v
  obtain ⟨v', h⟩ := a fun _ _ _ _ => trivial
  refine ⟨v', h, fun i hi => ?_⟩
  obtain ⟨b, hb⟩ := hD i hi
  have := (butsolve_rel _ _ A hS hD d v v' h).2 i hi b hb
  simp only [copyLoc, Res.ok.injEq] at this
  rw [← this, sub_add_cancel]

section Relax
variable [SMul K X] [SMul K Y]

/-- Relaxed `bltsolve`: D v = w (d - L v). The action commutes with scalars. -/
theorem C24_bltsolve_relaxed (β : BlockSolve B X Y) (w : K) (hw : ∀ a x, β.act a (w • x) = w • β.act a x) (A : SpMat B)
    (hS : A.Sorted) (hD : A.HasDiag) (d : Nat → Y) (v v' : Nat → X)
    (h : bltsolve β.act (solveRelaxLoc β w) A d v = .ok v') (i : Nat) (hi : i < A.n) (a : B) (ha : (A.row i).Stores i a) :
    β.act a (v' i) = w • (d i - A.partSum β.act (· < i) v' i) := by
  have := (bltsolve_rel _ _ A hS hD d v v' h).2 i hi a ha
  simp only [solveRelaxLoc] at this
  rw [Res.bind_eq_ok] at this
  obtain ⟨x, h1, h2⟩ := this
  injection h2 with h2
  rw [← h2, hw, solveLoc_ok β h1]

/-- Relaxed `butsolve`: D v = w (d - U v). -/
theorem C24_butsolve_relaxed (β : BlockSolve B X Y) (w : K) (hw : ∀ a x, β.act a (w • x) = w • β.act a x) (A : SpMat B)
    (hS : A.Sorted) (hD : A.HasDiag) (d : Nat → Y) (v v' : Nat → X)
    (h : butsolve β.act (solveRelaxLoc β w) A d v = .ok v') (i : Nat) (hi : i < A.n) (a : B) (ha : (A.row i).Stores i a) :
    β.act a (v' i) = w • (d i - A.partSum β.act (i < ·) v' i) := by
  have := (butsolve_rel _ _ A hS hD d v v' h).2 i hi a ha
  simp only [solveRelaxLoc] at this
  rw [Res.bind_eq_ok] at this
  obtain ⟨x, h1, h2⟩ := this
  injection h2 with h2
  rw [← h2, hw, solveLoc_ok β h1]

/-- Relaxed `bdsolve`: D v = w d. -/
theorem C24_bdsolve_relaxed (β : BlockSolve B X Y) (w : K) (hw : ∀ a x, β.act a (w • x) = w • β.act a x) (A : SpMat B)
    (hS : A.Sorted) (hD : A.HasDiag) (d : Nat → Y) (v v' : Nat → X)
    (h : bdsolve (solveRelaxLoc β w) A d v = .ok v') (i : Nat) (hi : i < A.n) (a : B) (ha : (A.row i).Stores i a) :
    β.act a (v' i) = w • d i := by
  have := (bdsolve_rel _ A hS hD d v v' h).2 i hi a ha
  simp only [solveRelaxLoc] at this
  rw [Res.bind_eq_ok] at this
  obtain ⟨x, h1, h2⟩ := this
  injection h2 with h2
  rw [← h2, hw, solveLoc_ok β h1]

end Relax

/-- Relaxed unit solves: v = w (d - L v) and v = w (d - U v). -/
theorem C24_unit_relaxed [SMul K X] (act : B → X →+ X) (w : K) (A : SpMat B) (hS : A.Sorted) (hD : A.HasDiag)
    (d v v' : Nat → X) :
    (bltsolve act (copyRelaxLoc w) A d v = .ok v' → ∀ i, i < A.n → v' i = w • (d i - A.partSum act (· < i) v' i)) ∧
    (butsolve act (copyRelaxLoc w) A d v = .ok v' → ∀ i, i < A.n → v' i = w • (d i - A.partSum act (i < ·) v' i)) := by
  constructor
  · intro h i hi
    obtain ⟨b, hb⟩ := hD i hi
    have := (bltsolve_rel _ _ A hS hD d v v' h).2 i hi b hb
    simp only [copyRelaxLoc, Res.ok.injEq] at this
    exact this.symm
  · intro h i hi
    obtain ⟨b, hb⟩ := hD i hi
    have := (butsolve_rel _ _ A hS hD d v v' h).2 i hi b hb
    simp only [copyRelaxLoc, Res.ok.injEq] at this
    exact this.symm

/-- Block recursion level 2 (`BL<2>`): the diagonal blocks are themselves sparse matrices and only their lower triangle is
inverted, i.e. the point-wise lower triangle of the whole matrix. `act2` is the action of a nested block. -/
theorem C24_bltsolve_two_levels (β : BlockSolve B X Y) (act2 : SpMat B → (Nat → X) →+ (Nat → Y)) (A : SpMat (SpMat B))
    (hS : A.Sorted) (hD : A.HasDiag) (hS2 : ∀ i, i < A.n → ∀ a, (A.row i).Stores i a → a.Sorted ∧ a.HasDiag)
    (d : Nat → Nat → Y) (v v' : Nat → Nat → X)
    (h : bltsolve act2 (fun a x y => bltsolve β.act (solveLoc β) a y x) A d v = .ok v')
    (i : Nat) (hi : i < A.n) (a : SpMat B) (ha : (A.row i).Stores i a) (k : Nat) (hk : k < a.n) (c : B)
    (hc : (a.row k).Stores k c) :
    A.partSum act2 (· < i) v' i k + a.partSum β.act (· < k) (v' i) k + β.act c (v' i k) = d i k := by
  have h1 := (bltsolve_rel _ _ A hS hD d v v' h).2 i hi a ha
  have h2 := C24_bltsolve β a (hS2 i hi a ha).1 (hS2 i hi a ha).2 _ _ _ h1 k hk c hc
  rw [add_assoc, h2, Pi.sub_apply, add_sub_cancel]

/-- Numbers as blocks. -/
def numSolve : BlockSolve ℚ ℚ ℚ where
  act a := AddMonoidHom.mulLeft a
  solve a y := if a = 0 then none else some (y / a)
  solve_iff a y x := by
    by_cases ha : a = 0
    · subst ha
      simp only [if_true]
      constructor
      · intro h; cases h
      · rintro ⟨⟨h1, -⟩, -⟩
        have : (1 : ℚ) = 0 := h1 (by simp)
        exact absurd this one_ne_zero
    · simp only [if_neg ha, Option.some.injEq, AddMonoidHom.coe_mulLeft]
      constructor
      · rintro rfl
        exact ⟨mulLeft_bijective₀ a ha, by rw [mul_div_cancel₀ _ ha]⟩
      · rintro ⟨-, rfl⟩
        rw [mul_div_cancel_left₀ _ ha]

/-- A concrete 3x3 matrix with an unsymmetric pattern. -/
def demo33 : SpMat ℚ :=
  { n := 3, m := 3, row := fun i => match i with | 0 => [(0, 2), (2, 1)] | 1 => [(0, 1), (1, 4)] | 2 => [(0, 3), (1, -1), (2, 5)] | _ => [] }

theorem demo33_sorted : demo33.Sorted := by
  intro i hi
  have hi : i < 3 := hi
  interval_cases i <;> simp [demo33, Row.Asc]

theorem demo33_diag : demo33.HasDiag := by
  intro i hi
  have hi : i < 3 := hi
  interval_cases i <;> simp [demo33, Row.Has]

/-- Non-vacuity: the hypotheses hold for `demo33` and the solve succeeds with the expected values. -/
example : demo33.Sorted ∧ demo33.HasDiag ∧
    ((bltsolve numSolve.act (solveLoc numSolve) demo33 (fun i => [2, 5, 17].getD i 0) (fun _ => 7)) >>= fun v =>
      .ok [v 0, v 1, v 2]) = .ok [1, 1, 3] :=
  ⟨demo33_sorted, demo33_diag, by decide +kernel⟩

end Istl
