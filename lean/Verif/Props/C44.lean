import Verif.Lemmas.Galerkin
import Verif.Lemmas.GalerkinPattern
import Verif.Lemmas.MatrixGraph
import Mathlib.Algebra.Field.Rat
import Mathlib.Tactic.IntervalCases

/-!
# C44 — the coarse matrix is the Galerkin product

`BaseGalerkinProduct::calculate` fills a coarse matrix whose pattern contains the couplings with the entries of `Pᵀ A P`.
-/

namespace Istl
namespace Amg
open Finset MatMat

variable {B : Type} [AddCommGroup B]

/-- For every square matrix, every aggregates map and every coarse matrix whose pattern contains the diagonal and the couplings
between aggregates, `calculate` returns a matrix of the same pattern holding the entries of `Pᵀ A P`. -/
theorem C44_values (agg : List Agg) (A : SpMat B) (hA : A.WF) (hsq : A.m = A.n) (k : Nat) (hm : MapOK agg A.n k)
    (C : SpMat B) (hn : C.n = k) (hC : ∀ a < C.n, (C.row a).Asc) (hd : ∀ a < C.n, C.Has a a)
    (hpat : ∀ i j a b, A.Has i j → agg[i]? = some (.id a) → agg[j]? = some (.id b) → C.Has a b) :
    ∃ C', calculate .ok A agg C = .ok C' ∧ SamePat C C' ∧ ∀ a < k, ∀ b, C'.entry a b = PtAP agg A a b := by
  obtain ⟨C', e, hp, hv⟩ := galerkin_loop agg A hA hsq k hm C hn hC hpat
  obtain ⟨rs, e1, e2⟩ := diag_roundtrip C' (fun a ha => hp.asc a (hC a (by rw [← hp.1]; exact ha)))
    (fun a ha => by
      have := hd a (by rw [← hp.1]; exact ha)
      exact ⟨ha, (hp.has _ _).mpr this.2⟩)
  refine ⟨C', ?_, hp, hv⟩
  unfold calculate
  rw [e, Res.ok_bind, e1, Res.ok_bind]
  exact e2

/-- The entries of `Pᵀ A P` are those of the composed linear map: applying `A` between prolongation and restriction. -/
theorem C44_is_product {X : Type} [AddCommGroup X] (act : B →+ X →+ X) (agg : List Agg) (A : SpMat B) (hsq : A.m = A.n) (k : Nat)
    (hm : MapOK agg A.n k) (c : Nat → X) (a : Nat) :
    ∑ b ∈ range k, act (PtAP agg A a b) (c b) =
      Pt agg A.n (fun i => ∑ j ∈ range A.m, act (A.entry i j) (P agg c j)) a := by
  simp only [PtAP, Pt, map_sum, AddMonoidHom.finsetSum_apply]
  rw [Finset.sum_comm]
  apply Finset.sum_congr rfl
  intro i hi
  rw [Finset.sum_comm]
  by_cases h : agg[i]? = some (.id a)
  · rw [if_pos h]
    apply Finset.sum_congr rfl
    intro j hj
    rcases hm.2 j (by rw [← hsq]; exact Finset.mem_range.mp hj) with hjv | ⟨b, hb, hjv⟩
    · simp [hjv, P]
    · rw [Finset.sum_eq_single b]
      · simp [h, hjv, P]
      · intro b' _ hb'
        simp [hjv, Ne.symm hb']
      · intro hnb
        exact absurd (Finset.mem_range.mpr hb) hnb
  · simp [h]

/-- Non-vacuity: the 1d Laplacian on four vertices with aggregates `{0,1}`, `{2}` and vertex 3 isolated. -/
example :
    let A : SpMat ℚ := ⟨4, 4, fun i => match i with
      | 0 => [(0, 2), (1, -1)] | 1 => [(0, -1), (1, 2), (2, -1)] | 2 => [(1, -1), (2, 2), (3, -1)] | 3 => [(2, -1), (3, 2)]
      | _ => []⟩
    let agg : List Agg := [.id 0, .id 0, .id 1, .iso]
    let C : SpMat ℚ := ⟨2, 2, fun i => if i < 2 then [(0, 7), (1, 7)] else []⟩
    MapOK agg 4 2 ∧ (calculate .ok A agg C >>= fun C' => Res.ok (C'.row 0, C'.row 1)) =
      .ok ([(0, 2), (1, -1)], [(0, -1), (1, 2)]) := by
  refine ⟨⟨rfl, ?_⟩, ?_⟩
  · intro i hi
    interval_cases i <;> simp
  · decide +kernel

/-- `build` on any graph whose aggregates are connected and numbered by first vertex terminates without undefined behaviour and
gives one row per aggregate: its columns are the aggregate itself and exactly the aggregates coupled to it, in ascending order. -/
theorem C44_pattern (G : Graph) (hG : G.WF) (agg : Nat → Agg) (hc : ConnectedAggs G agg) (hn : Numbered G agg)
    (fuel : Nat) (hf : G.n + 1 ≤ fuel) :
    ∃ rows, buildPattern G fuel agg (numBelow agg G.n) = some (.ok rows) ∧ rows.length = numBelow agg G.n ∧
      ∀ (a : Nat) (r : List Nat), rows[a]? = some r → r.Pairwise (· < ·) ∧ ∀ b, b ∈ r ↔ (b = a ∨ Coupled G agg a b) :=
  buildPattern_spec G hG agg hc hn fuel hf

theorem matrixGraph_wf {B : Type} (A : SpMat B) (hA : A.WF) (G : Graph) (hG : matrixGraph A = .ok G) :
    A.m = A.n ∧ G.n = A.n ∧ G.WF ∧ ∀ i < A.n, ∀ j, j ∈ G.adj i ↔ A.Has i j ∧ j ≠ i := by
  unfold matrixGraph at hG
  split at hG
  · cases hG
  · rename_i h
    simp only [Res.ok.injEq] at hG
    subst hG
    have hadj : ∀ i < A.n, ∀ j, j ∈ (matrixEdges A i).map Prod.fst ↔ A.Has i j ∧ j ≠ i := by
      intro i hi j
      rw [matrixEdges_targets A i (hA i hi).1, List.mem_filter, List.mem_map]
      simp only [ne_eq, decide_not, Bool.not_eq_eq_eq_not, Bool.not_true, decide_eq_false_iff_not]
      refine and_congr_left fun _ => ?_
      constructor
      · rintro ⟨⟨c, b⟩, hb, rfl⟩
        exact ⟨hi, b, hb⟩
      · rintro ⟨_, b, hb⟩
        exact ⟨(j, b), hb, rfl⟩
    refine ⟨by omega, rfl, ?_, hadj⟩
    intro u hu t ht
    dsimp only at hu ht ⊢
    obtain ⟨⟨_, b, hb⟩, _⟩ := (hadj u hu t).mp ht
    have : A.m = A.n := by omega
    rw [← this]
    exact (hA u hu).2 _ hb

/-- The whole coarsening step: the matrix graph, `build`, then `calculate` on the matrix it made (whatever its uninitialised
values were) give the matrix `Pᵀ A P`, stored on exactly the diagonal and the couplings between aggregates. -/
theorem C44_galerkin (A : SpMat B) (hA : A.WF) (G : Graph) (hG : matrixGraph A = .ok G) (agg : Nat → Agg)
    (hu : ∀ v < A.n, agg v ≠ .unagg) (hc : ConnectedAggs G agg) (hn : Numbered G agg) (fuel : Nat) (hf : A.n + 1 ≤ fuel)
    (junk : B) (k : Nat) (hk : k = numBelow agg A.n) :
    ∃ rows C', buildPattern G fuel agg k = some (.ok rows) ∧
      calculate .ok A ((List.range A.n).map agg) (patternMat k rows junk) = .ok C' ∧ C'.n = k ∧ C'.m = k ∧ C'.WF ∧
      (∀ a < k, ∀ b, C'.Has a b ↔ (b = a ∨ ∃ i j, A.Has i j ∧ agg i = .id a ∧ agg j = .id b)) ∧
      ∀ a < k, ∀ b < k, C'.entry a b = PtAP ((List.range A.n).map agg) A a b := by
  obtain ⟨hsq, hGn, hGw, hadj⟩ := matrixGraph_wf A hA G hG
  obtain ⟨rows, e, hlen, hrows⟩ := C44_pattern G hGw agg hc hn fuel (by omega)
  rw [hGn, ← hk] at e hlen
  have hget : ∀ i, ∀ x : Agg, ((List.range A.n).map agg)[i]? = some x ↔ i < A.n ∧ agg i = x := by
    intro i x
    rw [List.getElem?_map]
    by_cases hi : i < A.n
    · rw [List.getElem?_range hi]; simp [hi]
    · rw [List.getElem?_eq_none (by simp; omega)]; simp [hi]
  have hrow : ∀ a < k, ∃ r, rows[a]? = some r ∧ (patternMat k rows junk).row a = r.map fun c => (c, junk) := by
    intro a ha
    refine ⟨rows[a], List.getElem?_eq_getElem (by omega), ?_⟩
    simp [patternMat, List.getD_eq_getElem?_getD, List.getElem?_eq_getElem (show a < rows.length by omega)]
  have hcoup : ∀ a b, Coupled G agg a b ∨ b = a ↔ (b = a ∨ ∃ i j, A.Has i j ∧ agg i = .id a ∧ agg j = .id b) := by
    intro a b
    constructor
    · rintro (⟨i, j, hi, h1, h2, h3⟩ | h)
      · exact Or.inr ⟨i, j, ((hadj i (by omega) j).mp h2).1, h1, h3⟩
      · exact Or.inl h
    · rintro (h | ⟨i, j, h1, h2, h3⟩)
      · exact Or.inr h
      · by_cases hij : j = i
        · subst hij
          rw [h2] at h3
          exact Or.inr (by simpa using h3.symm)
        · exact Or.inl ⟨i, j, by rw [hGn]; exact h1.1, h2, (hadj i h1.1 j).mpr ⟨h1, hij⟩, h3⟩
  have hhas : ∀ a < k, ∀ b, (patternMat k rows junk).Has a b ↔ (b = a ∨ ∃ i j, A.Has i j ∧ agg i = .id a ∧ agg j = .id b) := by
    intro a ha b
    obtain ⟨r, hr, er⟩ := hrow a ha
    rw [← hcoup, or_comm, ← (hrows a r hr).2 b]
    unfold SpMat.Has Row.Has
    rw [er]
    constructor
    · rintro ⟨_, x, hx⟩
      obtain ⟨c, hc, hcx⟩ := List.mem_map.mp hx
      simp only [Prod.mk.injEq] at hcx
      rw [← hcx.1]; exact hc
    · intro hb
      exact ⟨ha, junk, List.mem_map.mpr ⟨b, hb, rfl⟩⟩
  have hm : MapOK ((List.range A.n).map agg) A.n k := by
    refine ⟨by simp, ?_⟩
    intro i hi
    cases h : agg i with
    | unagg => exact absurd h (hu i hi)
    | iso => exact Or.inl ((hget i _).mpr ⟨hi, h⟩)
    | id a =>
      refine Or.inr ⟨a, ?_, (hget i _).mpr ⟨hi, h⟩⟩
      obtain ⟨f, hfi, hF, ef⟩ := exists_first agg i (by rw [h]; simp)
      rw [hn f (by omega) hF, h] at ef
      simp only [Agg.id.injEq] at ef
      rw [ef, hk]
      exact numBelow_lt agg hF (by omega)
  have hasc : ∀ a < (patternMat k rows junk).n, ((patternMat k rows junk).row a).Asc := by
    intro a ha
    obtain ⟨r, hr, er⟩ := hrow a ha
    rw [er]
    unfold Row.Asc
    rw [List.map_map]
    have : (Prod.fst ∘ fun c => (c, junk)) = (id : Nat → Nat) := rfl
    rw [this, List.map_id]
    exact (hrows a r hr).1
  obtain ⟨C', e2, hp, hv⟩ := C44_values ((List.range A.n).map agg) A hA hsq k hm (patternMat k rows junk) rfl hasc
    (by intro a ha; exact (hhas a ha a).mpr (Or.inl rfl))
    (by
      intro i j a b h1 h2 h3
      have h2' := ((hget i _).mp h2).2
      have h3' := ((hget j _).mp h3).2
      have ha : a < k := by
        rcases hm.2 i h1.1 with h | ⟨a', ha', h⟩
        · rw [h2] at h; cases h
        · rw [h2] at h
          simp only [Option.some.injEq, Agg.id.injEq] at h
          omega
      exact (hhas a ha b).mpr (Or.inr ⟨i, j, h1, h2', h3'⟩))
  have hHas : ∀ a < k, ∀ b, C'.Has a b ↔ (b = a ∨ ∃ i j, A.Has i j ∧ agg i = .id a ∧ agg j = .id b) := by
    intro a ha b
    rw [← hhas a ha b]
    unfold SpMat.Has
    rw [hp.1]
    exact and_congr_right fun _ => hp.has a b
  refine ⟨rows, C', e, e2, hp.1, hp.2.1, ?_, hHas, fun a ha b _ => hv a ha b⟩
  intro a ha
  have hn : C'.n = k := hp.1
  have hm' : C'.m = k := hp.2.1
  refine ⟨hp.asc a (hasc a (by rw [← hp.1]; exact ha)), fun x hx => ?_⟩
  rcases (hHas a (by omega) x.1).mp ⟨ha, x.2, hx⟩ with h | ⟨i, j, hij, _, hj⟩
  · omega
  · have hjn : j < A.n := by
      obtain ⟨hi, y, hy⟩ := hij
      have := (hA i hi).2 _ hy
      omega
    rcases hm.2 j hjn with h | ⟨b, hb, h⟩
    · rw [((hget j _).mp h).2] at hj; cases hj
    · rw [((hget j _).mp h).2] at hj
      have : b = x.1 := by simpa using hj
      omega

/-- Non-vacuity: the path of five vertices with the aggregates {0,1} and {2,3}, vertex 4 isolated. -/
example : demoPath.WF ∧ ConnectedAggs demoPath (fun v => match v with | 0 => .id 0 | 1 => .id 0 | 4 => .iso | _ => .id 1) ∧
    Numbered demoPath (fun v => match v with | 0 => .id 0 | 1 => .id 0 | 4 => .iso | _ => .id 1) ∧
    buildPattern demoPath 6 (fun v => match v with | 0 => .id 0 | 1 => .id 0 | 4 => .iso | _ => .id 1) 2 =
      some (.ok [[0, 1], [0, 1]]) := by
  refine ⟨demoPath_wf, ?_, ?_, by decide +kernel⟩
  · intro f v hf hv hF e
    change f < 5 at hf
    change v < 5 at hv
    interval_cases f <;> interval_cases v <;>
      first
      | exact .refl
      | exact .single ⟨by simp [demoPath], rfl⟩
      | (exfalso; revert hF e; decide)
  · intro f hf hF
    change f < 5 at hf
    interval_cases f <;> first | (exfalso; revert hF; decide) | decide +kernel

end Amg
end Istl
