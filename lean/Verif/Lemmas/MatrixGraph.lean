import Verif.Lemmas.Bfs
import Verif.Spec.SpMat
import Verif.Lemmas.SpMat
import Mathlib.Data.List.Nodup

/-! The graph of a matrix. -/

namespace Istl
namespace Amg

variable {B : Type}

theorem edgesFrom_eq (s : Nat) : ∀ (l : List Nat) (e : Nat), l.Nodup → edgesFrom s l e = (l.filter (· ≠ s)).zipIdx e
  | [], e, _ => by
    unfold edgesFrom
    rfl
  | c :: r, e, h => by
    rw [List.nodup_cons] at h
    unfold edgesFrom
    by_cases hc : c = s
    · have hr : r.filter (· ≠ s) = r := by
        rw [List.filter_eq_self]
        intro x hx
        simp only [ne_eq, decide_eq_true_eq]
        rintro rfl
        exact h.1 (hc ▸ hx)
      rw [List.filter_cons_of_neg (by simp [hc]), hr]
      have hs : skipDiag s (c :: r) = r := by simp [skipDiag, hc]
      split
      · rename_i h'
        rw [hs] at h'
        subst h'; rfl
      · rename_i c' r' h'
        rw [hs] at h'
        subst h'
        rw [List.zipIdx_cons]
        congr 1
        rw [edgesFrom_eq s r' (e + 1) (List.nodup_cons.mp h.2).2]
        congr 1
        rw [List.filter_eq_self] at hr ⊢
        intro x hx
        exact hr x (by simp [hx])
    · rw [List.filter_cons_of_pos (by simp [hc]), List.zipIdx_cons]
      have hs : skipDiag s (c :: r) = c :: r := by simp [skipDiag, hc]
      split
      · rename_i h'
        rw [hs] at h'
        cases h'
      · rename_i c' r' h'
        rw [hs] at h'
        cases h'
        congr 1
        exact edgesFrom_eq s r (e + 1) h.2
termination_by l => l.length
decreasing_by
  all_goals simp_all
  all_goals omega

theorem cols_nodup {r : Row B} (h : r.Asc) : (r.map Prod.fst).Nodup := by
  unfold Row.Asc at h
  exact h.imp (fun hab => Nat.ne_of_lt hab)

theorem matrixEdges_targets (A : SpMat B) (v : Nat) (h : (A.row v).Asc) :
    (matrixEdges A v).map Prod.fst = ((A.row v).map Prod.fst).filter (· ≠ v) := by
  unfold matrixEdges
  rw [edgesFrom_eq _ _ _ (cols_nodup h), List.zipIdx_map_fst]

end Amg
end Istl
