import Verif.Lemmas.Ilu
import Mathlib.Tactic.Abel
import Mathlib.Tactic.NoncommRing

/-! # C17, C18, C19 — ILU(0) and its backsolve -/

namespace Istl
open Ilu Gsetc
variable {R : Type} [Ring R]

/-- The factor product at `(i,j)`, written with the stored entries. -/
theorem factor_sum (F : SpMat R) (piv : Nat → R) (n i j : Nat) (hi : i < n) (hj : j < n) (hasc : (F.row i).Asc)
    (hc : ∀ e ∈ F.row i, e.1 < n) :
    ∑ k ∈ Finset.range n, lowerFactor F i k * upperFactor F piv k j =
      (((F.row i).filter fun e => decide (e.1 < i ∧ e.1 < j)).map fun e => e.2 * (F.row e.1).val j).sum +
        (if j < i then (F.row i).val j * piv j else if j = i then piv i else (F.row i).val j) := by
  have h1 : (((F.row i).filter fun e => decide (e.1 < i ∧ e.1 < j)).map fun e => e.2 * (F.row e.1).val j).sum =
      ∑ k ∈ Finset.range n, if k < i ∧ k < j then F.entry i k * F.entry k j else 0 := by
    have h2 := Row.sum_val (F.row i) hasc n hc (fun k b => if k < i ∧ k < j then b * (F.row k).val j else 0) (by intro k; simp)
    have h3 : ∑ k ∈ Finset.range n, (if k < i ∧ k < j then F.entry i k * F.entry k j else 0) =
        ∑ k ∈ Finset.range n, (fun k b => if k < i ∧ k < j then b * (F.row k).val j else 0) k ((F.row i).val k) := rfl
    rw [h3, h2]
    induction F.row i with
    | nil => rfl
    | cons e r ih =>
      by_cases he : e.1 < i ∧ e.1 < j
      · rw [List.filter_cons_of_pos (by simpa using he)]
        simp only [List.map_cons, List.sum_cons, he, and_self, if_true]
        rw [ih]
      · rw [List.filter_cons_of_neg (by simpa using he)]
        simp only [List.map_cons, List.sum_cons]
        rw [if_neg he, zero_add, ih]
  rw [h1]
  have h4 : ∀ T : R, T = ∑ k ∈ Finset.range n, if k = min i j then T else 0 := by
    intro T
    rw [Finset.sum_ite_eq' (Finset.range n) (min i j) (fun _ => T)]
    simp [hi]
  rw [h4 (if j < i then (F.row i).val j * piv j else if j = i then piv i else (F.row i).val j), ← Finset.sum_add_distrib]
  apply Finset.sum_congr rfl
  intro k _
  unfold lowerFactor upperFactor SpMat.entry
  rcases Nat.lt_trichotomy i j with h | h | h
  · rw [Nat.min_eq_left (le_of_lt h)]
    rcases Nat.lt_trichotomy k i with hk | hk | hk
    · simp [hk, show k < j by omega, show k ≠ i by omega]
    · subst hk; simp [h, show ¬ j < k by omega, show j ≠ k by omega]
    · simp [show ¬ k < i by omega, show k ≠ i by omega]
  · subst h
    rw [Nat.min_self]
    rcases Nat.lt_trichotomy k i with hk | hk | hk
    · simp [hk, show k ≠ i by omega]
    · subst hk; simp
    · simp [show ¬ k < i by omega, show k ≠ i by omega]
  · rw [Nat.min_eq_right (le_of_lt h)]
    rcases Nat.lt_trichotomy k j with hk | hk | hk
    · simp [hk, show k < i by omega, show k ≠ j by omega]
    · subst hk; simp [h]
    · simp [show ¬ k < j by omega, show k ≠ j by omega]

theorem finished_of {rows : Nat → Row R} {i : Nat}
    (h : ∀ j, j < i → (rows j).Asc ∧ ∃ p f, (rows j).Stores j f ∧ p * f = 1 ∧ f * p = 1) :
    ∃ piv dinv, Finished rows piv dinv i := by
  classical
  refine ⟨fun j => if hj : j < i then (h j hj).2.choose else 0, fun j => if hj : j < i then (h j hj).2.choose_spec.choose else 0,
    fun j hj => ?_⟩
  simp only [dif_pos hj]
  have := (h j hj).2.choose_spec.choose_spec
  exact ⟨(h j hj).1, this⟩

theorem asc_of_cols {r s : Row R} (h : r.map Prod.fst = s.map Prod.fst) (hs : s.Asc) : r.Asc := by
  unfold Row.Asc; rw [h]; exact hs

/-- the rows of the result, each eliminated with the finished rows above it -/
theorem ilu0_rows (I : BlockInv R) (A F : SpMat R) (h : ilu0 I A = .ok F) :
    F.n = A.n ∧ F.m = A.m ∧ ∀ i, i < A.n → elimRow I F.row i [] (A.row i) = .ok (F.row i) := by
  unfold ilu0 at h
  rw [Res.bind_eq_ok] at h
  obtain ⟨rows, h1, h2⟩ := h
  injection h2 with h2
  subst h2
  refine ⟨rfl, rfl, fun i hi => ?_⟩
  have := (forRangeM_gs (X := Row R) id _ (fun i x y => elimRow I x i [] (x i) = .ok y) A.n
    (by
      intro i _ s s' hs
      rw [Res.bind_eq_ok] at hs
      obtain ⟨y, h1, h2⟩ := hs
      injection h2 with h2
      exact ⟨y, h2.symm, h1⟩) A.row rows h1).2 i hi
  simp only [id_eq, lt_irrefl, if_false] at this
  rw [← elim_congr I (rows := fun j => if j < i then rows j else A.row j) (rows' := rows) (fun j hj => by simp [hj]) _ _ rfl]
  exact this

theorem ilu0_finished (I : BlockInv R) (A F : SpMat R) (hA : A.WF) (h : ilu0 I A = .ok F) :
    ∀ i, i < A.n → (F.row i).map Prod.fst = (A.row i).map Prod.fst ∧ (F.row i).Asc ∧
      ∃ p f, (F.row i).Stores i f ∧ p * f = 1 ∧ f * p = 1 := by
  obtain ⟨-, -, hr⟩ := ilu0_rows I A F h
  intro i
  induction i using Nat.strong_induction_on with
  | _ i ih =>
    intro hi
    obtain ⟨piv, dinv, H⟩ := finished_of (rows := F.row) (i := i) fun j hj => (ih j hj (by omega)).2
    obtain ⟨tail, p, g1, g2, ⟨f, g3, g4⟩, -⟩ := elim_sound H I _ _ rfl [] _ (hA i hi).1 (hr i hi)
    rw [List.nil_append] at g1
    rw [g1]
    exact ⟨g2, asc_of_cols g2 (hA i hi).1, p, f, g3, g4⟩

/-- When `blockILU0Decomposition` succeeds, the unit lower factor times the upper factor reproduces the matrix at every stored
position. Blocks need not commute. -/
theorem C17_ilu0_reproduces_on_pattern (I : BlockInv R) (A F : SpMat R) (hA : A.WF) (hsq : A.m = A.n)
    (h : ilu0 I A = .ok F) : ∃ piv, IsILU A F piv := by
  obtain ⟨hn, hm, hr⟩ := ilu0_rows I A F h
  have hfin := ilu0_finished I A F hA h
  obtain ⟨piv, dinv, H⟩ := finished_of (rows := F.row) (i := A.n) fun j hj => (hfin j hj).2
  refine ⟨piv, hn, hm, fun i hi => (hfin i hi).1, fun i hi => ?_, ?_⟩
  · obtain ⟨h1, h2, h3⟩ := H i hi
    have : F.entry i i = dinv i := Row.val_of_mem h1 h2
    rw [this]; exact h3
  · rintro i j ⟨hi, a, ha⟩
    have hcols : ∀ e ∈ F.row i, e.1 < A.n := by
      intro e he
      have : e.1 ∈ (A.row i).map Prod.fst := (hfin i hi).1 ▸ List.mem_map_of_mem he
      obtain ⟨x, hx, hxe⟩ := List.mem_map.mp this
      rw [← hxe, ← hsq]; exact (hA i hi).2 x hx
    have hj : j < A.n := hsq ▸ (hA i hi).2 _ ha
    rw [factor_sum F piv A.n i j hi hj (hfin i hi).2.1 hcols]
    have H' : Finished F.row piv dinv i := fun j hj => H j (by omega)
    obtain ⟨tail, p, g1, g2, ⟨f, g3, g4⟩, g5⟩ := elim_sound H' I _ _ rfl [] _ (hA i hi).1 (hr i hi)
    rw [List.nil_append] at g1
    obtain ⟨f', h1, h2⟩ := g5 j a ha
    rw [← g1] at h1 h2 g3
    have hf : f = dinv i := (hfin i hi).2.1.unique g3 (H i hi).2.1
    have hp : p = piv i := by
      rw [hf] at g4
      calc p = p * (dinv i * piv i) := by rw [(H i hi).2.2.2, mul_one]
        _ = piv i := by rw [← mul_assoc, g4.1, one_mul]
    have hv : (F.row i).val j = f' := Row.val_of_mem (hfin i hi).2.1 h1
    have ha' : A.entry i j = a := Row.val_of_mem (hA i hi).1 ha
    rw [ha', hv, h2, hp]

/-- If the pattern is closed under elimination, the product of the factors is the whole matrix. -/
theorem C17_closed_pattern_exact (I : BlockInv R) (A F : SpMat R) (hA : A.WF) (hsq : A.m = A.n)
    (hclosed : ∀ i j k, k < i → k < j → A.Has i k → A.Has k j → A.Has i j) (h : ilu0 I A = .ok F) :
    ∃ piv, (∀ i, i < A.n → piv i * F.entry i i = 1 ∧ F.entry i i * piv i = 1) ∧ ∀ i j, i < A.n → j < A.n →
      ∑ k ∈ Finset.range A.n, lowerFactor F i k * upperFactor F piv k j = A.entry i j := by
  obtain ⟨piv, hF⟩ := C17_ilu0_reproduces_on_pattern I A F hA hsq h
  have hfin := ilu0_finished I A F hA h
  refine ⟨piv, hF.pivot, fun i j hi hj => ?_⟩
  by_cases hij : A.Has i j
  · exact hF.product i j hij
  · have hno : ∀ b, (j, b) ∉ A.row i := fun b hb => hij ⟨hi, b, hb⟩
    have hhas : ∀ i j, i < A.n → ¬ A.Has i j → F.entry i j = 0 := by
      intro i j hi hij
      apply Row.val_of_not_mem
      intro b hb
      have : j ∈ (A.row i).map Prod.fst := (hfin i hi).1 ▸ List.mem_map_of_mem (f := Prod.fst) hb
      obtain ⟨x, hx, hxe⟩ := List.mem_map.mp this
      exact hij ⟨hi, x.2, by rw [← hxe]; exact hx⟩
    have hA0 : A.entry i j = 0 := Row.val_of_not_mem hno
    rw [hA0]
    apply Finset.sum_eq_zero
    intro k hk
    have hk := Finset.mem_range.mp hk
    have hdiag : A.Has i i := by
      obtain ⟨h1, -, p, f, h3, -⟩ := hfin i hi
      have : i ∈ (A.row i).map Prod.fst := h1 ▸ List.mem_map_of_mem (f := Prod.fst) h3
      obtain ⟨x, hx, hxe⟩ := List.mem_map.mp this
      exact ⟨hi, x.2, by
        have : x = (i, x.2) := Prod.ext hxe rfl
        rw [this] at hx; exact hx⟩
    unfold lowerFactor upperFactor
    rcases Nat.lt_trichotomy k i with h1 | h1 | h1
    · rw [if_pos h1]
      rcases Nat.lt_trichotomy k j with h2 | h2 | h2
      · rw [if_pos h2]
        by_cases e1 : A.Has i k
        · by_cases e2 : A.Has k j
          · exact absurd (hclosed i j k h1 h2 e1 e2) hij
          · rw [hhas k j hk e2, mul_zero]
        · rw [hhas i k hi e1, zero_mul]
      · subst h2; rw [hhas i k hi hij, zero_mul]
      · rw [if_neg (by omega), if_neg (by omega), mul_zero]
    · subst h1
      simp only [lt_irrefl, if_false, if_true, one_mul]
      rcases Nat.lt_trichotomy k j with h2 | h2 | h2
      · rw [if_pos h2, hhas k j hk hij]
      · subst h2; exact absurd hdiag hij
      · rw [if_neg (by omega), if_neg (by omega)]
    · rw [if_neg (by omega), if_neg (by omega), zero_mul]

/-- outcome of the row loop -/
theorem ilu0_outcome (I : BlockInv R) (A : SpMat R) (hA : A.WF) (hD : A.HasDiag) (t : Nat) (ht : t ≤ A.n) :
    (∃ rows, forRangeM t (fun i rows => do
        let r ← elimRow I rows i [] (rows i)
        .ok (upd rows i r)) A.row = .ok rows ∧ (∀ k, t ≤ k → rows k = A.row k) ∧
      ∀ j, j < t → (rows j).Asc ∧ ∃ p f, (rows j).Stores j f ∧ p * f = 1 ∧ f * p = 1) ∨
    forRangeM t (fun i rows => do
        let r ← elimRow I rows i [] (rows i)
        .ok (upd rows i r)) A.row = .throw .matrixBlockError := by
  induction t with
  | zero => exact Or.inl ⟨A.row, rfl, fun _ _ => rfl, fun j hj => by omega⟩
  | succ t ih =>
    rcases ih (by omega) with ⟨rows, h1, h2, h3⟩ | h
    · rw [forRangeM_succ, h1, Res.ok_bind]
      obtain ⟨piv, dinv, H⟩ := finished_of h3
      have hrt : rows t = A.row t := h2 t (le_refl _)
      rcases elim_outcome H I _ (rows t) rfl [] (by rw [hrt]; exact (hA t (by omega)).1)
        (by rw [hrt]; exact hD t (by omega)) with ⟨r', hr'⟩ | hr'
      · left
        refine ⟨upd rows t r', by rw [hr', Res.ok_bind], fun k hk => ?_, fun j hj => ?_⟩
        · rw [upd_ne _ _ (by omega), h2 k (by omega)]
        · by_cases hjt : j = t
          · subst hjt
            rw [upd_same]
            obtain ⟨tail, p, g1, g2, ⟨f, g3, g4⟩, -⟩ :=
              elim_sound H I _ _ rfl [] _ (by rw [hrt]; exact (hA j (by omega)).1) hr'
            rw [List.nil_append] at g1
            rw [g1]
            exact ⟨asc_of_cols g2 (by rw [hrt]; exact (hA j (by omega)).1), p, f, g3, g4⟩
          · rw [upd_ne _ _ hjt]; exact h3 j (by omega)
      · right; rw [hr', Res.throw_bind]
    · right; rw [forRangeM_succ, h, Res.throw_bind]

/-- Completeness: an existing factorisation on the pattern is found. -/
theorem ilu0_complete (I : BlockInv R) (A F : SpMat R) (piv : Nat → R) (hA : A.WF) (hsq : A.m = A.n) (hD : A.HasDiag)
    (hF : IsILU A F piv) : ∃ F', ilu0 I A = .ok F' ∧ ∀ i, i < A.n → F'.row i = F.row i := by
  have hasc : ∀ i, i < A.n → (F.row i).Asc := fun i hi => asc_of_cols (hF.pattern i hi) (hA i hi).1
  have hdiag : ∀ i, i < A.n → ∃ f, (F.row i).Stores i f := by
    intro i hi
    obtain ⟨b, hb⟩ := hD i hi
    have : i ∈ (F.row i).map Prod.fst := (hF.pattern i hi) ▸ List.mem_map_of_mem (f := Prod.fst) hb
    obtain ⟨x, hx, hxe⟩ := List.mem_map.mp this
    exact ⟨x.2, by have : x = (i, x.2) := Prod.ext hxe rfl
                   rw [this] at hx; exact hx⟩
  have hcols : ∀ i, i < A.n → ∀ e ∈ F.row i, e.1 < A.n := by
    intro i hi e he
    have : e.1 ∈ (A.row i).map Prod.fst := (hF.pattern i hi) ▸ List.mem_map_of_mem he
    obtain ⟨x, hx, hxe⟩ := List.mem_map.mp this
    rw [← hxe, ← hsq]; exact (hA i hi).2 x hx
  have key : ∀ t, t ≤ A.n → forRangeM t (fun i rows => do
        let r ← elimRow I rows i [] (rows i)
        .ok (upd rows i r)) A.row = .ok (fun i => if i < t then F.row i else A.row i) := by
    intro t
    induction t with
    | zero => intro _; simp [forRangeM_zero]
    | succ t ih =>
      intro ht
      rw [forRangeM_succ, ih (by omega), Res.ok_bind]
      set mixed : Nat → Row R := fun i => if i < t then F.row i else A.row i with hmixed
      have hmt : mixed t = A.row t := by simp [hmixed]
      have hmj : ∀ j, j < t → mixed j = F.row j := by intro j hj; simp [hmixed, hj]
      have H : Finished mixed piv (fun i => F.entry i i) t := by
        intro j hj
        rw [hmj j hj]
        obtain ⟨f, hf⟩ := hdiag j (by omega)
        have he : F.entry j j = f := Row.val_of_mem (hasc j (by omega)) hf
        refine ⟨hasc j (by omega), by show (F.row j).Stores j (F.entry j j); rw [he]; exact hf, hF.pivot j (by omega)⟩
      have := elim_complete H I (piv t) (F.row t) (A.row t) [] (hA t (by omega)).1 (hF.pattern t (by omega))
        (by
          obtain ⟨f, hf⟩ := hdiag t (by omega)
          have he : F.entry t t = f := Row.val_of_mem (hasc t (by omega)) hf
          exact ⟨f, hf, he ▸ hF.pivot t (by omega)⟩)
        (by
          intro j a f hja hjf
          have hj : j < A.n := hsq ▸ (hA t (by omega)).2 _ hja
          have h1 := hF.product t j ⟨by omega, a, hja⟩
          rw [factor_sum F piv A.n t j (by omega) hj (hasc t (by omega)) (hcols t (by omega))] at h1
          have ha : A.entry t j = a := Row.val_of_mem (hA t (by omega)).1 hja
          have hf : (F.row t).val j = f := Row.val_of_mem (hasc t (by omega)) hjf
          rw [ha, hf] at h1
          unfold RowEq
          rw [← h1]
          congr 2
          apply List.map_congr_left
          intro e he
          rw [List.mem_filter] at he
          have : e.1 < t := by have := he.2; simp at this; omega
          rw [hmj e.1 this])
      rw [List.nil_append] at this
      rw [hmt, this, Res.ok_bind]
      congr 1
      funext k
      by_cases hk : k = t
      · subst hk; simp
      · rw [upd_ne _ _ hk]
        simp only [hmixed]
        have : k < t + 1 ↔ k < t := by omega
        simp [this]
  refine ⟨{ A with row := fun i => if i < A.n then F.row i else A.row i }, ?_, fun i hi => by simp [hi]⟩
  unfold ilu0
  rw [key A.n (le_refl _), Res.ok_bind]

/-- With a stored diagonal: `blockILU0Decomposition` succeeds exactly when a factorisation with invertible pivots exists on
the pattern (and then returns it), and throws `MatrixBlockError` otherwise; it is never undefined. -/
theorem C18_ilu0_succeeds_iff_factorisation_exists (I : BlockInv R) (A : SpMat R) (hA : A.WF) (hsq : A.m = A.n)
    (hD : A.HasDiag) :
    (∀ F piv, IsILU A F piv → ∃ F', ilu0 I A = .ok F' ∧ ∀ i, i < A.n → F'.row i = F.row i) ∧
    ((¬ ∃ F piv, IsILU A F piv) → ilu0 I A = .throw .matrixBlockError) := by
  refine ⟨fun F piv hF => ilu0_complete I A F piv hA hsq hD hF, fun hno => ?_⟩
  rcases ilu0_outcome I A hA hD A.n (le_refl _) with ⟨rows, h1, -⟩ | h
  · exfalso
    have : ilu0 I A = .ok { A with row := rows } := by unfold ilu0; rw [h1, Res.ok_bind]
    obtain ⟨piv, hF⟩ := C17_ilu0_reproduces_on_pattern I A _ hA hsq this
    exact hno ⟨_, piv, hF⟩
  · unfold ilu0; rw [h, Res.throw_bind]

/-- A matrix with a row lacking its diagonal entry is never reported as factored. -/
theorem C18_missing_diagonal_never_succeeds (I : BlockInv R) (A F : SpMat R) (hA : A.WF) (i : Nat) (hi : i < A.n)
    (hmiss : ¬ (A.row i).Has i) : ilu0 I A ≠ .ok F := by
  intro h
  obtain ⟨h1, -, p, f, h3, -⟩ := ilu0_finished I A F hA h i hi
  have : i ∈ (A.row i).map Prod.fst := h1 ▸ List.mem_map_of_mem (f := Prod.fst) h3
  obtain ⟨x, hx, hxe⟩ := List.mem_map.mp this
  exact hmiss ⟨x.2, by have : x = (i, x.2) := Prod.ext hxe rfl
                       rw [this] at hx; exact hx⟩

/-- If every row has its diagonal entry or at least an entry right of it, the only outcomes are success, `ISTLError`
("diagonal entry missing") and `MatrixBlockError`. -/
theorem C18_no_undefined_behaviour (I : BlockInv R) (A : SpMat R) (hA : A.WF)
    (hend : ∀ i, i < A.n → ∃ e ∈ A.row i, i ≤ e.1) :
    (∃ F, ilu0 I A = .ok F) ∨ ilu0 I A = .throw .istlError ∨ ilu0 I A = .throw .matrixBlockError := by
  have key : ∀ t, t ≤ A.n →
      (∃ rows, forRangeM t (fun i rows => do
        let r ← elimRow I rows i [] (rows i)
        .ok (upd rows i r)) A.row = .ok rows ∧ (∀ k, t ≤ k → rows k = A.row k) ∧
      ∀ j, j < t → (rows j).Asc ∧ ∃ p f, (rows j).Stores j f ∧ p * f = 1 ∧ f * p = 1) ∨
    (forRangeM t (fun i rows => do
        let r ← elimRow I rows i [] (rows i)
        .ok (upd rows i r)) A.row = .throw .istlError) ∨ (forRangeM t (fun i rows => do
        let r ← elimRow I rows i [] (rows i)
        .ok (upd rows i r)) A.row = .throw .matrixBlockError) := by
    intro t
    induction t with
    | zero => intro _; exact Or.inl ⟨A.row, rfl, fun _ _ => rfl, fun j hj => by omega⟩
    | succ t ih =>
      intro ht
      rcases ih (by omega) with ⟨rows, h1, h2, h3⟩ | h | h
      · rw [forRangeM_succ, h1, Res.ok_bind]
        obtain ⟨piv, dinv, H⟩ := finished_of h3
        have hrt : rows t = A.row t := h2 t (le_refl _)
        have hasct : (rows t).Asc := by rw [hrt]; exact (hA t (by omega)).1
        by_cases hd : (rows t).Has t
        · rcases elim_outcome H I _ (rows t) rfl [] hasct hd with ⟨r', hr'⟩ | hr'
          · left
            refine ⟨upd rows t r', by rw [hr', Res.ok_bind], fun k hk => ?_, fun j hj => ?_⟩
            · rw [upd_ne _ _ (by omega), h2 k (by omega)]
            · by_cases hjt : j = t
              · subst hjt
                rw [upd_same]
                obtain ⟨tail, p, g1, g2, ⟨f, g3, g4⟩, -⟩ := elim_sound H I _ _ rfl [] _ hasct hr'
                rw [List.nil_append] at g1
                rw [g1]
                exact ⟨asc_of_cols g2 hasct, p, f, g3, g4⟩
              · rw [upd_ne _ _ hjt]; exact h3 j (by omega)
          · right; right; rw [hr', Res.throw_bind]
        · right; left
          have := (elim_missing H I _ (rows t) rfl [] hasct hd).1 (by
            obtain ⟨e, he, hle⟩ := hend t (by omega)
            refine ⟨e, by rw [hrt]; exact he, ?_⟩
            rcases Nat.lt_or_ge t e.1 with h | h
            · exact h
            · exfalso
              have : e.1 = t := by omega
              exact hd ⟨e.2, by
                rw [hrt]; have h' : e = (t, e.2) := Prod.ext this rfl
                rw [h'] at he; exact he⟩)
          rw [this, Res.throw_bind]
      · right; left; rw [forRangeM_succ, h, Res.throw_bind]
      · right; right; rw [forRangeM_succ, h, Res.throw_bind]
  rcases key A.n (le_refl _) with ⟨rows, h, -⟩ | h | h
  · left; exact ⟨_, by unfold ilu0; rw [h, Res.ok_bind]⟩
  · right; left; unfold ilu0; rw [h, Res.throw_bind]
  · right; right; unfold ilu0; rw [h, Res.throw_bind]

/-- Numbers as blocks. -/
def numInv : BlockInv ℚ where
  inv a := if a = 0 then none else some a⁻¹
  inv_iff a b := by
    by_cases ha : a = 0
    · subst ha; simp
    · simp only [if_neg ha, Option.some.injEq]
      constructor
      · rintro rfl; exact ⟨mul_inv_cancel₀ ha, inv_mul_cancel₀ ha⟩
      · rintro ⟨h1, -⟩; exact (eq_inv_of_mul_eq_one_right h1).symm

/-- The hypothesis on the ends of the rows is needed: the search for the diagonal of a row whose entries all lie left of it
runs past the end of the row instead of throwing. -/
theorem C18_missing_diagonal_counterexample :
    (match ilu0 numInv { n := 2, m := 2, row := fun i => if i = 0 then [(0, 1)] else [(0, 1)] } with
      | .ub => true | _ => false) = true := by
  decide +kernel

section Backsolve
variable {V : Type} [AddCommGroup V] [Module R V]

/-- The product of row `i` of a factor with a vector. -/
theorem partSum_eq_sum (F : SpMat R) (n : Nat) (i : Nat) (hasc : (F.row i).Asc) (hc : ∀ e ∈ F.row i, e.1 < n)
    (P : Nat → Prop) [DecidablePred P] (x : Nat → V) :
    F.partSum Ilu.act P x i = ∑ k ∈ Finset.range n, if P k then F.entry i k • x k else 0 := by
  have h2 := Row.sum_val (F.row i) hasc n hc (fun k b => if P k then b • x k else 0) (by intro k; simp)
  have h3 : ∑ k ∈ Finset.range n, (if P k then F.entry i k • x k else 0) =
      ∑ k ∈ Finset.range n, (fun k b => if P k then b • x k else 0) k ((F.row i).val k) := rfl
  rw [h3, h2]
  unfold SpMat.partSum
  induction F.row i with
  | nil => rfl
  | cons e r ih =>
    by_cases he : P e.1
    · rw [List.filter_cons_of_pos (by simpa using he)]
      simp only [List.map_cons, List.sum_cons, he, if_true]
      rw [ih]; rfl
    · rw [List.filter_cons_of_neg (by simpa using he)]
      simp only [List.map_cons, List.sum_cons]
      rw [if_neg he, zero_add, ih]

/-- `blockILUBacksolve` always succeeds on a matrix with stored diagonal and returns the `v` with `L (U v) = d`. -/
theorem C19_backsolve_inverts_factors (F : SpMat R) (piv : Nat → R) (hF : F.WF) (hsq : F.m = F.n) (hD : F.HasDiag)
    (hp : ∀ i, i < F.n → piv i * F.entry i i = 1 ∧ F.entry i i * piv i = 1) (v d : Nat → V) :
    ∃ v', backsolve F v d = .ok v' ∧ (∀ k, F.n ≤ k → v' k = v k) ∧ ∀ i, i < F.n →
      ∑ k ∈ Finset.range F.n, lowerFactor F i k • (∑ j ∈ Finset.range F.n, upperFactor F piv k j • v' j) = d i := by
  have hS : F.Sorted := fun i hi => (hF i hi).1
  have hc : ∀ i, i < F.n → ∀ e ∈ F.row i, e.1 < F.n := fun i hi e he => hsq ▸ (hF i hi).2 e he
  obtain ⟨y, hy, hyd⟩ := C24_ubltsolve (Ilu.act (R := R) (V := V)) F hS hD d v
  have hy2 := (bltsolve_rel _ _ F hS hD d v y hy).1
  obtain ⟨-, ⟨a, -⟩, -⟩ := btsolve_accepts (Ilu.act (R := R) (V := V)) (fun a _ rhs => .ok (a • rhs)) (fun _ => True)
    ⟨fun a x y _ => ⟨a • y, rfl⟩, fun a x y h => absurd trivial h⟩ F hS hD y y
  obtain ⟨w, hw⟩ := a fun _ _ _ _ => trivial
  obtain ⟨hw1, hw2⟩ := butsolve_rel _ _ F hS hD y y w hw
  refine ⟨w, by unfold backsolve; rw [hy, Res.ok_bind, upperSolve_eq, hw], fun k hk => by rw [hw1 k hk, hy2 k hk], ?_⟩
  have hU : ∀ k, k < F.n → ∑ j ∈ Finset.range F.n, upperFactor F piv k j • w j = y k := by
    intro k hk
    obtain ⟨b, hb⟩ := hD k hk
    have h1 := hw2 k hk b hb
    simp only [Res.ok.injEq] at h1
    have hbe : F.entry k k = b := Row.val_of_mem (hS k hk) hb
    have h2 : piv k • w k = y k - F.partSum Ilu.act (k < ·) w k := by
      rw [← h1, smul_smul, ← hbe, (hp k hk).1, one_smul]
    rw [partSum_eq_sum F F.n k (hS k hk) (hc k hk)] at h2
    have h3 : ∑ j ∈ Finset.range F.n, upperFactor F piv k j • w j =
        ∑ j ∈ Finset.range F.n, ((if k < j then F.entry k j • w j else 0) + if j = k then piv k • w k else 0) := by
      apply Finset.sum_congr rfl
      intro j _
      unfold upperFactor
      rcases Nat.lt_trichotomy k j with h | h | h
      · simp [h, show j ≠ k by omega]
      · subst h; simp
      · simp [show ¬ k < j by omega, show k ≠ j by omega, show j ≠ k by omega]
    rw [h3, Finset.sum_add_distrib, Finset.sum_ite_eq' (Finset.range F.n) k (fun _ => piv k • w k), h2]
    simp [hk]
  intro i hi
  have h4 : ∑ k ∈ Finset.range F.n, lowerFactor F i k • (∑ j ∈ Finset.range F.n, upperFactor F piv k j • w j) =
      ∑ k ∈ Finset.range F.n, ((if k < i then F.entry i k • y k else 0) + if k = i then y i else 0) := by
    apply Finset.sum_congr rfl
    intro k hk
    rw [hU k (Finset.mem_range.mp hk)]
    unfold lowerFactor
    rcases Nat.lt_trichotomy k i with h | h | h
    · simp [h, show k ≠ i by omega]
    · subst h; simp
    · simp [show ¬ k < i by omega, show k ≠ i by omega]
  rw [h4, Finset.sum_add_distrib, Finset.sum_ite_eq' (Finset.range F.n) i (fun _ => y i)]
  rw [← hyd i hi, partSum_eq_sum F F.n i (hS i hi) (hc i hi), add_comm]
  simp [hi]

/-- Together: after a successful ILU(0) the backsolve inverts the product of the computed factors. -/
theorem C19_ilu0_then_backsolve (I : BlockInv R) (A F : SpMat R) (hA : A.WF) (hsq : A.m = A.n) (h : ilu0 I A = .ok F)
    (v d : Nat → V) :
    ∃ piv v', IsILU A F piv ∧ backsolve F v d = .ok v' ∧ ∀ i, i < A.n →
      ∑ k ∈ Finset.range A.n, lowerFactor F i k • (∑ j ∈ Finset.range A.n, upperFactor F piv k j • v' j) = d i := by
  obtain ⟨piv, hF⟩ := C17_ilu0_reproduces_on_pattern I A F hA hsq h
  have hfin := ilu0_finished I A F hA h
  have hn := hF.n
  obtain ⟨v', h1, -, h2⟩ := C19_backsolve_inverts_factors F piv
    (by
      intro i hi
      rw [hn] at hi
      refine ⟨(hfin i hi).2.1, fun e he => ?_⟩
      have : e.1 ∈ (A.row i).map Prod.fst := (hfin i hi).1 ▸ List.mem_map_of_mem he
      obtain ⟨x, hx, hxe⟩ := List.mem_map.mp this
      rw [← hxe, hF.m]; exact (hA i hi).2 x hx)
    (by rw [hF.m, hn, hsq]) (by
      intro i hi
      rw [hn] at hi
      obtain ⟨-, -, p, f, h3, -⟩ := hfin i hi
      exact ⟨f, h3⟩) (by intro i hi; rw [hn] at hi; exact hF.pivot i hi) v d
  refine ⟨piv, v', hF, h1, ?_⟩
  rw [hn] at h2
  exact h2

end Backsolve

/-- Non-vacuity: a 3x3 matrix with a fill position `(2,1)`-free pattern meets the hypotheses and is factored. -/
example : (match ilu0 numInv demo33 with
    | .ok F => [F.row 0, F.row 1, F.row 2]
    | _ => []) = [[(0, 1 / 2), (2, 1)], [(0, 1 / 2), (1, 1 / 4)], [(0, 3 / 2), (1, -1 / 4), (2, 2 / 7)]] := by
  decide +kernel

end Istl
