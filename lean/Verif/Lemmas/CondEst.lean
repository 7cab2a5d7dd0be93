import Verif.Model.CondEst
import Verif.Lemmas.Cg
import Verif.Lemmas.Arpack2
import Verif.Props.C92

/-! # The tridiagonal matrix of CG -/

namespace Istl
namespace Solver
open Arpack Finset

/-- The entries of the tridiagonal matrix. -/
noncomputable def lancT (lam be : Nat → ℝ) (j k : Nat) : ℝ :=
  (if j = k then 1 / lam k + (if 0 < k then be (k - 1) / lam (k - 1) else 0) else 0) + (if j + 1 = k then Real.sqrt (be j) / lam j else 0) +
    if j = k + 1 then Real.sqrt (be k) / lam k else 0

/-- Row `row` as stored. -/
noncomputable def lancRow (lam be : Nat → ℝ) (i row : Nat) : Row Blk :=
  (if 0 < row then [(row - 1, fun _ _ => Real.sqrt (be (row - 1)) / lam (row - 1))] else []) ++
    [(row, fun _ _ => 1 / lam row + (if 0 < row then be (row - 1) / lam (row - 1) else 0))] ++
    if row + 1 < i then [(row + 1, fun _ _ => Real.sqrt (be row) / lam row)] else []

theorem estMatrix_ok {lam be : Nat → ℝ} {L B : List ℝ} {i : Nat} (hL : VecIs L i lam) (hB : VecIs B (i - 1) be) :
    ∃ T, estMatrix L B i = .ok T ∧ T.n = i ∧ T.m = i ∧ ∀ row, row < i → T.row row = lancRow lam be i row := by
  have h := forRangeM_inv i (fun row (rows : Nat → Row Blk) => do
      let a ← estLower L B row
      let b ← estDiag L B row
      let c ← estUpper L B i row
      .ok (upd rows row (a ++ b ++ c))) (fun k (rows : Nat → Row Blk) => ∀ row, row < k → rows row = lancRow lam be i row) (fun _ => [])
    (by intro row hr; omega) (by
    intro k rows hk hI
    have e1 : estLower L B k = .ok (if 0 < k then [(k - 1, fun _ _ => Real.sqrt (be (k - 1)) / lam (k - 1))] else []) := by
      unfold estLower
      split
      · rw [hB.2 (k - 1) (by omega), Res.ok_bind, hL.2 (k - 1) (by omega), Res.ok_bind]
      · rfl
    have e2 : estDiag L B k = .ok [(k, fun _ _ => 1 / lam k + (if 0 < k then be (k - 1) / lam (k - 1) else 0))] := by
      unfold estDiag
      rw [hL.2 k hk, Res.ok_bind]
      split
      · rw [hB.2 (k - 1) (by omega), Res.ok_bind, hL.2 (k - 1) (by omega), Res.ok_bind]
      · rw [add_zero]
    have e3 : estUpper L B i k = .ok (if k + 1 < i then [(k + 1, fun _ _ => Real.sqrt (be k) / lam k)] else []) := by
      unfold estUpper
      split
      · rw [hB.2 k (by omega), Res.ok_bind, hL.2 k (by omega), Res.ok_bind]
      · rfl
    refine ⟨upd rows k (lancRow lam be i k), ?_, ?_⟩
    · rw [e1, Res.ok_bind, e2, Res.ok_bind, e3, Res.ok_bind]; rfl
    · intro row hr
      unfold upd
      split
      · next h => rw [h]
      · exact hI row (by omega))
  obtain ⟨rows, h1, h2⟩ := h
  refine ⟨⟨i, i, rows⟩, ?_, rfl, rfl, h2⟩
  unfold estMatrix
  rw [h1, Res.ok_bind]

theorem estMatrix_wf {lam be : Nat → ℝ} {T : SpMat Blk} {i : Nat} (hn : T.n = i) (hm : T.m = i)
    (h : ∀ row, row < i → T.row row = lancRow lam be i row) : T.WF := by
  intro row hr
  rw [hn] at hr
  rw [h row hr, hm]
  unfold lancRow Row.Asc
  constructor
  · by_cases h1 : 0 < row <;> by_cases h2 : row + 1 < i <;> simp [h1, h2] <;> omega
  · intro e he
    simp only [List.mem_append, List.mem_singleton] at he
    rcases he with (he | he) | he
    · split at he
      · rw [List.mem_singleton.mp he]; dsimp only; omega
      · simp at he
    · rw [he]; exact hr
    · split at he
      · rw [List.mem_singleton.mp he]; assumption
      · simp at he

theorem estMatrix_entry {lam be : Nat → ℝ} {T : SpMat Blk} {i : Nat}
    (h : ∀ row, row < i → T.row row = lancRow lam be i row) {j k : Nat} (hj : j < i) (hk : k < i) : flat 1 1 T j k = lancT lam be j k := by
  unfold flat SpMat.entry
  rw [Nat.div_one, Nat.div_one, h j hj]
  unfold lancRow lancT Row.val
  by_cases c1 : j = k
  · subst c1
    by_cases h1 : 0 < j
    · simp [h1, List.find?_cons, show ¬ (j - 1 = j) by omega]
    · simp [h1, List.find?_cons]
  · by_cases c2 : j + 1 = k
    · subst c2
      have h2 : j + 1 < i := hk
      by_cases h1 : 0 < j
      · simp [h1, h2, List.find?_cons, show ¬ (j - 1 = j + 1) by omega, show ¬ (j = j + 1 + 1) by omega]
      · simp [h1, h2, List.find?_cons, show ¬ (j = j + 1 + 1) by omega]
    · by_cases c3 : j = k + 1
      · subst c3
        simp [List.find?_cons, show ¬ (k + 1 + 1 = k) by omega]
      · have h3 : ¬ (j - 1 = k ∧ 0 < j) := by omega
        by_cases h1 : 0 < j
        · have h4 : ¬ (j - 1 = k) := by omega
          by_cases h2 : j + 1 < i <;> simp [h1, h2, List.find?_cons, c1, c2, c3, h4]
        · by_cases h2 : j + 1 < i <;> simp [h1, h2, List.find?_cons, c1, c2, c3]

end Solver
end Istl
