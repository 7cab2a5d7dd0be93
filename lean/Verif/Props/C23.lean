import Verif.Spec.Dilu
import Verif.Props.C17

/-! # C23: DILU decomposition and back substitution -/

namespace Istl
open Ilu Gsetc Dilu
variable {R V : Type} [Ring R] [AddCommGroup V] [Module R V]

theorem find_val {r : Row R} (hr : r.Asc) (i : Nat) :
    (∃ q, r.find i = .ok (some q) ∧ rd r q = .ok (i, r.val i)) ∨ (r.find i = .ok none ∧ r.val i = 0) := by
  by_cases h : r.Has i
  · obtain ⟨b, hb⟩ := h
    obtain ⟨q, h1, h2⟩ := find_diag r hr hb
    left; exact ⟨q, h1, by rw [h2, Row.val_of_mem hr hb]⟩
  · right
    have hn : ∀ b, (i, b) ∉ r := fun b hb => h ⟨b, hb⟩
    exact ⟨((C01_find_exact r hr i).2.1).mpr h, Row.val_of_not_mem hn⟩

theorem couple_fold (A : SpMat R) (D : Nat → R) (i : Nat) : ∀ (es : List (Nat × R)) (acc : R), (∀ e ∈ es, (A.row e.1).Asc) →
    es.foldlM (couple A D i) acc = .ok (acc - (es.map fun e => e.2 * D e.1 * A.entry e.1 i).sum) := by
  intro es
  induction es with
  | nil => intro acc _; simp
  | cons e es ih =>
    intro acc h
    have hc : couple A D i acc e = .ok (acc - e.2 * D e.1 * A.entry e.1 i) := by
      unfold couple
      rcases find_val (h e (by simp)) i with ⟨q, h1, h2⟩ | ⟨h1, h2⟩
      · rw [h1, Res.ok_bind]; simp only [h2, Res.ok_bind]; rfl
      · rw [h1, Res.ok_bind]; simp [SpMat.entry, h2]
    rw [List.foldlM_cons, hc, Res.ok_bind, ih _ fun e he => h e (by simp [he]), List.map_cons, List.sum_cons, sub_sub]

/-- the value that is inverted in row `i` -/
theorem pivot_sum (A : SpMat R) (D : Nat → R) (hA : A.WF) (hsq : A.m = A.n) {i : Nat} (hi : i < A.n) :
    ((((A.row i).takeWhile fun e => decide (e.1 < i)).map fun e => e.2 * D e.1 * A.entry e.1 i).sum : R) =
      ∑ j ∈ Finset.range i, A.entry i j * D j * A.entry j i := by
  rw [takeWhile_lt (hA i hi).1]
  have hasc : Row.Asc ((A.row i).filter fun e => decide (e.1 < i)) :=
    List.Pairwise.sublist (List.Sublist.map _ List.filter_sublist) (hA i hi).1
  have h2 := Row.sum_val ((A.row i).filter fun e => decide (e.1 < i)) hasc i
    (by intro e he; rw [List.mem_filter] at he; simpa using he.2) (fun k b => b * D k * A.entry k i) (by intro k; simp)
  rw [← h2]
  apply Finset.sum_congr rfl
  intro k hk
  have hki := Finset.mem_range.mp hk
  have : Row.val ((A.row i).filter fun e => decide (e.1 < i)) k = A.entry i k := by
    unfold SpMat.entry Row.val
    rw [List.find?_filter]
    congr 1
    apply List.find?_congr
    intro e he
    by_cases hek : e.1 = k
    · simp [hek, hki]
    · simp [hek]
  rw [this]

theorem init_spec (A : SpMat R) (hA : A.WF) (hD : A.HasDiag) (D : Nat → R) :
    ∃ D0, init A D = .ok D0 ∧ (∀ i, i < A.n → D0 i = A.entry i i) ∧ ∀ k, A.n ≤ k → D0 k = D k := by
  have key : ∀ t, t ≤ A.n → ∃ D0, forRangeM t (fun i D => do
      let p ← (A.row i).find i
      match p with
      | none => Res.ub
      | some q => do
        let e ← rd (A.row i) q
        .ok (upd D i e.2)) D = .ok D0 ∧ (∀ i, i < t → D0 i = A.entry i i) ∧ ∀ k, t ≤ k → D0 k = D k := by
    intro t
    induction t with
    | zero => intro _; exact ⟨D, rfl, fun i hi => by omega, fun k _ => rfl⟩
    | succ t ih =>
      intro ht
      obtain ⟨D0, h1, h2, h3⟩ := ih (by omega)
      obtain ⟨b, hb⟩ := hD t (by omega)
      obtain ⟨q, e1, e2⟩ := find_diag _ (hA t (by omega)).1 hb
      refine ⟨upd D0 t b, ?_, fun i hi => ?_, fun k hk => ?_⟩
      · rw [forRangeM_succ, h1, Res.ok_bind, e1, Res.ok_bind]
        simp only [e2, Res.ok_bind]
      · by_cases hit : i = t
        · subst hit; rw [upd_same]; exact (Row.val_of_mem (hA i (by omega)).1 hb).symm
        · rw [upd_ne _ _ hit]; exact h2 i (by omega)
      · rw [upd_ne _ _ (by omega)]; exact h3 k (by omega)
  exact key A.n (le_refl _)

theorem diagonal_iff (A : SpMat R) (D Dinv : Nat → R) {i : Nat} (hi : i < A.n) (hinv : D i * Dinv i = 1) :
    (∑ k ∈ Finset.range A.n, dLower A D i k * Dinv k * dUpper A D k i = A.entry i i) ↔
      D i = A.entry i i - ∑ j ∈ Finset.range i, A.entry i j * Dinv j * A.entry j i := by
  have h1 : ∑ k ∈ Finset.range A.n, dLower A D i k * Dinv k * dUpper A D k i =
      ∑ k ∈ Finset.range A.n, ((if k < i then A.entry i k * Dinv k * A.entry k i else 0) + if k = i then D i else 0) := by
    apply Finset.sum_congr rfl
    intro k _
    unfold dLower dUpper
    rcases Nat.lt_trichotomy k i with h | h | h
    · simp [h, show k ≠ i by omega]
    · subst h; simp [hinv]
    · simp [show ¬ k < i by omega, show k ≠ i by omega]
  have h2 : ∑ k ∈ Finset.range A.n, (if k < i then A.entry i k * Dinv k * A.entry k i else 0) =
      ∑ j ∈ Finset.range i, A.entry i j * Dinv j * A.entry j i := by
    rw [← Finset.sum_filter]
    apply Finset.sum_congr _ fun _ _ => rfl
    ext k; simp; omega
  rw [h1, Finset.sum_add_distrib, h2, Finset.sum_ite_eq' (Finset.range A.n) i (fun _ => D i)]
  simp only [Finset.mem_range, hi, if_true]
  rw [eq_sub_iff_add_eq, add_comm]

theorem rowStep_eq (I : BlockInv R) (A : SpMat R) (hA : A.WF) (hsq : A.m = A.n) (hD : A.HasDiag) {i : Nat} (hi : i < A.n)
    (Dv : Nat → R) : rowStep I A i Dv =
      match I.inv (Dv i - ∑ j ∈ Finset.range i, A.entry i j * Dv j * A.entry j i) with
      | some b => .ok (upd Dv i b)
      | none => .throw .matrixBlockError := by
  obtain ⟨b, hb⟩ := hD i hi
  unfold rowStep
  simp only [dropWhile_diag (hA i hi).1 hb]
  rw [couple_fold A Dv i _ _ fun e he => (hA e.1 (hsq ▸ (hA i hi).2 e ((List.takeWhile_sublist _).subset he))).1, Res.ok_bind,
    pivot_sum A Dv hA hsq hi]
  cases I.inv (Dv i - ∑ j ∈ Finset.range i, A.entry i j * Dv j * A.entry j i) <;> rfl

/-- When `blockDILUDecomposition` succeeds, `Dinv_` holds the inverses of the diagonal `D` with
`diag((D+L) D^{-1} (D+U)) = diag(A)`; blocks need not commute. -/
theorem C23_decomposition (I : BlockInv R) (A : SpMat R) (hA : A.WF) (hsq : A.m = A.n) (hD : A.HasDiag) (D0 Dinv : Nat → R)
    (h : decompose I A D0 = .ok Dinv) : ∃ D, IsDILU A D Dinv := by
  unfold decompose at h
  obtain ⟨D1, h1, h2, -⟩ := init_spec A hA hD D0
  rw [h1, Res.ok_bind] at h
  have := (forRangeM_gs id _ (fun i x y => I.inv (x i - ∑ j ∈ Finset.range i, A.entry i j * x j * A.entry j i) = some y) A.n
    (by
      intro i hi s s' hs
      rw [rowStep_eq I A hA hsq hD hi] at hs
      cases hv : I.inv (s i - ∑ j ∈ Finset.range i, A.entry i j * s j * A.entry j i) with
      | none => rw [hv] at hs; cases hs
      | some b => rw [hv] at hs; injection hs with hs; exact ⟨b, hs.symm, hv⟩) D1 Dinv h).2
  refine ⟨fun i => A.entry i i - ∑ j ∈ Finset.range i, A.entry i j * Dinv j * A.entry j i, ?_⟩
  have hinv : ∀ i, i < A.n → (A.entry i i - ∑ j ∈ Finset.range i, A.entry i j * Dinv j * A.entry j i) * Dinv i = 1 ∧
      Dinv i * (A.entry i i - ∑ j ∈ Finset.range i, A.entry i j * Dinv j * A.entry j i) = 1 := by
    intro i hi
    have h3 := this i hi
    simp only [id_eq, lt_irrefl, if_false] at h3
    rw [I.inv_iff, h2 i hi] at h3
    have h4 : ∑ j ∈ Finset.range i, A.entry i j * (if j < i then Dinv j else D1 j) * A.entry j i =
        ∑ j ∈ Finset.range i, A.entry i j * Dinv j * A.entry j i :=
      Finset.sum_congr rfl fun j hj => by rw [if_pos (Finset.mem_range.mp hj)]
    rwa [h4] at h3
  exact ⟨hinv, fun i hi => (diagonal_iff A _ Dinv hi (hinv i hi).1).mpr rfl⟩

/-- The decomposition is complete: if such a diagonal exists it is found (and it is the only one), otherwise `MatrixBlockError` is
thrown. -/
theorem C23_decomposition_complete (I : BlockInv R) (A : SpMat R) (hA : A.WF) (hsq : A.m = A.n) (hD : A.HasDiag) (D0 : Nat → R) :
    (∀ D Dinv, IsDILU A D Dinv → ∃ Dinv', decompose I A D0 = .ok Dinv' ∧ ∀ i, i < A.n → Dinv' i = Dinv i) ∧
    ((¬ ∃ D Dinv, IsDILU A D Dinv) → decompose I A D0 = .throw .matrixBlockError) := by
  obtain ⟨D1, h1, h2, -⟩ := init_spec A hA hD D0
  constructor
  · intro D Dinv hI
    have key : ∀ t, t ≤ A.n → ∃ Dt, forRangeM t (rowStep I A) D1 = .ok Dt ∧ (∀ i, i < t → Dt i = Dinv i) ∧
        ∀ k, t ≤ k → Dt k = D1 k := by
      intro t
      induction t with
      | zero => intro _; exact ⟨D1, rfl, fun i hi => by omega, fun k _ => rfl⟩
      | succ t ih =>
        intro ht
        obtain ⟨Dt, g1, g2, g3⟩ := ih (by omega)
        have hd := (diagonal_iff A D Dinv (show t < A.n by omega) (hI.inverse t (by omega)).1).mp (hI.diagonal t (by omega))
        have hs : Dt t - ∑ j ∈ Finset.range t, A.entry t j * Dt j * A.entry j t = D t := by
          rw [g3 t (le_refl _), h2 t (by omega), hd]
          congr 1
          exact Finset.sum_congr rfl fun j hj => by rw [g2 j (Finset.mem_range.mp hj)]
        refine ⟨upd Dt t (Dinv t), ?_, fun i hi => ?_, fun k hk => ?_⟩
        · rw [forRangeM_succ, g1, Res.ok_bind, rowStep_eq I A hA hsq hD (by omega), hs]
          have : I.inv (D t) = some (Dinv t) := (I.inv_iff _ _).mpr (hI.inverse t (by omega))
          rw [this]
        · by_cases hit : i = t
          · subst hit; rw [upd_same]
          · rw [upd_ne _ _ hit]; exact g2 i (by omega)
        · rw [upd_ne _ _ (by omega)]; exact g3 k (by omega)
    obtain ⟨Dt, g1, g2, -⟩ := key A.n (le_refl _)
    exact ⟨Dt, by unfold decompose; rw [h1, Res.ok_bind, g1], g2⟩
  · intro hno
    have key : ∀ t, t ≤ A.n → (∃ Dt, forRangeM t (rowStep I A) D1 = .ok Dt) ∨
        forRangeM t (rowStep I A) D1 = .throw .matrixBlockError := by
      intro t
      induction t with
      | zero => intro _; left; exact ⟨D1, rfl⟩
      | succ t ih =>
        intro ht
        rcases ih (by omega) with ⟨Dt, g⟩ | g
        · rw [forRangeM_succ, g, Res.ok_bind, rowStep_eq I A hA hsq hD (by omega)]
          split
          · left; exact ⟨_, rfl⟩
          · right; rfl
        · right; rw [forRangeM_succ, g, Res.throw_bind]
    rcases key A.n (le_refl _) with ⟨Dt, g⟩ | g
    · exact absurd (C23_decomposition I A hA hsq hD D0 Dt (by unfold decompose; rw [h1, Res.ok_bind, g]))
        fun ⟨D, h⟩ => hno ⟨D, Dt, h⟩
    · unfold decompose; rw [h1, Res.ok_bind, g]

/-- `blockDILUBacksolve` always succeeds on a matrix with stored diagonal and returns the `v` with
`(D+L) D^{-1} (D+U) v = d`. -/
theorem C23_backsolve (A : SpMat R) (hA : A.WF) (hsq : A.m = A.n) (hD : A.HasDiag) (D Dinv : Nat → R)
    (hinv : ∀ i, i < A.n → D i * Dinv i = 1 ∧ Dinv i * D i = 1) (v d : Nat → V) :
    ∃ v', Dilu.backsolve A Dinv v d = .ok v' ∧ (∀ k, A.n ≤ k → v' k = v k) ∧ ∀ i, i < A.n →
      ∑ k ∈ Finset.range A.n, dLower A D i k • Dinv k • (∑ j ∈ Finset.range A.n, dUpper A D k j • v' j) = d i := by
  have hS : A.Sorted := fun i hi => (hA i hi).1
  have hc : ∀ i, i < A.n → ∀ e ∈ A.row i, e.1 < A.n := fun i hi e he => hsq ▸ (hA i hi).2 e he
  -- lower solve
  obtain ⟨y, hy⟩ : ∃ y, lower A Dinv d v = .ok y := by
    refine (forRangeM_dich _ (fun _ => True) .istlError A.n ?_ (fun i hi h => absurd trivial h) v).1 fun _ _ => trivial
    intro i hi _ s
    obtain ⟨b, hb⟩ := hD i hi
    simp only [dropWhile_diag (hS i hi) hb]
    exact ⟨_, rfl⟩
  have hyr := forRangeM_gs id _ (fun i x y => y = Dinv i • (d i - A.partSum (Ilu.act (V := V)) (· < i) x i)) A.n (by
    intro i hi s s' hs
    obtain ⟨b, hb⟩ := hD i hi
    simp only [dropWhile_diag (hS i hi) hb, takeWhile_lt (hS i hi), residual_eq] at hs
    injection hs with hs
    exact ⟨_, hs.symm, rfl⟩) v y hy
  have hy1 : ∀ i, i < A.n → y i = Dinv i • (d i - A.partSum (Ilu.act (V := V)) (· < i) y i) := by
    intro i hi
    have := hyr.2 i hi
    simp only [id_eq] at this
    rw [partSum_congr Ilu.act A (· < i) (x := y) (y := fun j => if j < i then y j else v j) i (by intro j hj; simp [hj])]
    exact this
  -- upper solve
  obtain ⟨w, hw⟩ : ∃ w, upper A Dinv y = .ok w := by
    refine (forDownM_dich _ (fun _ => True) .istlError A.n ?_ (fun i hi h => absurd trivial h) y).1 fun _ _ => trivial
    intro i hi _ s
    obtain ⟨b, hb⟩ := hD i hi
    simp only [(reverse_take (hS i hi) hb).2]
    exact ⟨_, rfl⟩
  have hfold : ∀ (l : List (Nat × R)) (s : Nat → V) (a : V), l.foldl (fun rhs e => rhs + e.2 • s e.1) a =
      a + (l.map fun e => Ilu.act e.2 (s e.1)).sum := by
    intro l s
    induction l with
    | nil => intro a; simp
    | cons e l ih => intro a; rw [List.foldl_cons, ih, List.map_cons, List.sum_cons, add_assoc]; rfl
  have hwr := forDownM_gs id _ (fun i x z => z = x i - Dinv i • A.partSum (Ilu.act (V := V)) (i < ·) x i) A.n (by
    intro i hi s s' hs
    obtain ⟨b, hb⟩ := hD i hi
    simp only [(reverse_take (hS i hi) hb).2, (reverse_take (hS i hi) hb).1, hfold, zero_add] at hs
    injection hs with hs
    rw [List.map_reverse, List.sum_reverse] at hs
    exact ⟨_, hs.symm, rfl⟩) y w hw
  have hw1 : ∀ i, i < A.n → w i = y i - Dinv i • A.partSum (Ilu.act (V := V)) (i < ·) w i := by
    intro i hi
    have := hwr.2 i hi
    simp only [id_eq, lt_irrefl, if_false] at this
    rw [partSum_congr Ilu.act A (i < ·) (x := w) (y := fun j => if i < j then w j else y j) i (by intro j hj; simp [hj])]
    exact this
  refine ⟨w, by unfold Dilu.backsolve; rw [hy, Res.ok_bind, hw], fun k hk => ?_, ?_⟩
  · have h1 := hwr.1 k hk; have h2 := hyr.1 k hk
    simp only [id_eq] at h1 h2; rw [h1, h2]
  have hU : ∀ k, k < A.n → Dinv k • ∑ j ∈ Finset.range A.n, dUpper A D k j • w j = y k := by
    intro k hk
    have h3 : ∑ j ∈ Finset.range A.n, dUpper A D k j • w j =
        ∑ j ∈ Finset.range A.n, ((if k < j then A.entry k j • w j else 0) + if j = k then D k • w k else 0) := by
      apply Finset.sum_congr rfl
      intro j _
      unfold dUpper
      rcases Nat.lt_trichotomy k j with h | h | h
      · simp [h, show j ≠ k by omega]
      · subst h; simp
      · simp [show ¬ k < j by omega, show k ≠ j by omega, show j ≠ k by omega]
    rw [h3, Finset.sum_add_distrib, Finset.sum_ite_eq' (Finset.range A.n) k (fun _ => D k • w k),
      ← partSum_eq_sum A A.n k (hS k hk) (hc k hk)]
    simp only [Finset.mem_range, hk, if_true]
    rw [smul_add, smul_smul, (hinv k hk).2, one_smul]
    have h5 := hw1 k hk
    rw [eq_sub_iff_add_eq, add_comm] at h5
    exact h5
  intro i hi
  have h4 : ∑ k ∈ Finset.range A.n, dLower A D i k • Dinv k • (∑ j ∈ Finset.range A.n, dUpper A D k j • w j) =
      ∑ k ∈ Finset.range A.n, ((if k < i then A.entry i k • y k else 0) + if k = i then D i • y i else 0) := by
    apply Finset.sum_congr rfl
    intro k hk
    rw [hU k (Finset.mem_range.mp hk)]
    unfold dLower
    rcases Nat.lt_trichotomy k i with h | h | h
    · simp [h, show k ≠ i by omega]
    · subst h; simp
    · simp [show ¬ k < i by omega, show k ≠ i by omega]
  rw [h4, Finset.sum_add_distrib, Finset.sum_ite_eq' (Finset.range A.n) i (fun _ => D i • y i),
    ← partSum_eq_sum A A.n i (hS i hi) (hc i hi)]
  simp only [Finset.mem_range, hi, if_true]
  have h5 : D i • y i = d i - A.partSum (Ilu.act (V := V)) (· < i) y i := by
    rw [hy1 i hi, smul_smul, (hinv i hi).1, one_smul]
  rw [h5]; abel

/-- A 3x3 case: the decomposition succeeds and the last inverse pivot is not that of `A` alone. -/
example : (match decompose numInv demo33 (fun _ => 0) with
    | .ok D => [D 0, D 1, D 2]
    | _ => []) ≠ [] := by
  decide +kernel

/-- Without a stored diagonal entry the search result is dereferenced at the end of the row. -/
theorem C23_missing_diagonal_counterexample :
    (match decompose numInv { n := 1, m := 1, row := fun _ => [] } (fun _ => 0) with
      | .ub => true | _ => false) = true := by
  decide +kernel

end Istl
