import Verif.Props.C44

/-! # C50 — the graph of a matrix numbers its edges consistently -/

namespace Istl
namespace Amg

variable {B : Type}

theorem edges_mem (A : SpMat B) (v : Nat) (h : (A.row v).Asc) (t e : Nat) :
    (t, e) ∈ matrixEdges A v ↔ edgeStart A v ≤ e ∧ (((A.row v).map Prod.fst).filter (· ≠ v))[e - edgeStart A v]? = some t := by
  unfold matrixEdges
  rw [edgesFrom_eq _ _ _ (cols_nodup h), List.mem_zipIdx_iff_le_and_getElem?_sub]

theorem sorted_filter_ne_get (v : Nat) : ∀ (l : List Nat), l.Pairwise (· < ·) → ∀ (i t : Nat), l[i]? = some t → t < v →
    (l.filter (· ≠ v))[i]? = some t
  | [], _, i, t, h, _ => by simp at h
  | c :: r, hl, i, t, h, ht => by
    rw [List.pairwise_cons] at hl
    have hc : c ≠ v := by
      rintro rfl
      have hmem := List.mem_of_getElem? h
      rcases List.mem_cons.mp hmem with h1 | h1
      · omega
      · have := hl.1 t h1; omega
    rw [List.filter_cons_of_pos (by simp [hc])]
    cases i with
    | zero => simpa using h
    | succ i =>
      rw [List.getElem?_cons_succ] at h ⊢
      exact sorted_filter_ne_get v r hl.2 i t h ht

theorem sorted_filter_gt_get (v : Nat) : ∀ (l : List Nat), l.Pairwise (· < ·) → v ∈ l → ∀ (i t : Nat), l[i]? = some t → v < t →
    1 ≤ i ∧ (l.filter (· ≠ v))[i - 1]? = some t
  | [], _, h, _, _, _, _ => by simp at h
  | c :: r, hl, hv, i, t, h, ht => by
    rw [List.pairwise_cons] at hl
    by_cases hc : c = v
    · subst hc
      rw [List.filter_cons_of_neg (by simp)]
      have hr : r.filter (· ≠ c) = r := by
        rw [List.filter_eq_self]
        intro x hx
        have := hl.1 x hx
        simp; omega
      rw [hr]
      cases i with
      | zero => simp at h; omega
      | succ i => simpa using h
    · have hvr : v ∈ r := by
        rcases List.mem_cons.mp hv with h1 | h1
        · exact absurd h1.symm hc
        · exact h1
      rw [List.filter_cons_of_pos (by simp [hc])]
      cases i with
      | zero =>
        simp at h
        have := hl.1 v hvr
        omega
      | succ i =>
        rw [List.getElem?_cons_succ] at h
        obtain ⟨h1, h2⟩ := sorted_filter_gt_get v r hl.2 hvr i t h ht
        refine ⟨by omega, ?_⟩
        have : i + 1 - 1 = (i - 1) + 1 := by omega
        rw [this, List.getElem?_cons_succ]
        exact h2

theorem findIdx?_get (l : List Nat) (t : Nat) (hl : l.Nodup) (i : Nat) :
    l.findIdx? (· == t) = some i ↔ l[i]? = some t := by
  rw [List.findIdx?_eq_some_iff_getElem]
  constructor
  · rintro ⟨h, h1, _⟩
    rw [List.getElem?_eq_getElem h]
    simpa using h1
  · intro h
    obtain ⟨hi, he⟩ := List.getElem?_eq_some_iff.mp h
    refine ⟨hi, by simpa using he, ?_⟩
    intro j hj hc
    simp only [beq_iff_eq] at hc
    have := (List.Nodup.getElem_inj_iff hl (hi := by omega) (hj := hi)).mp (hc.trans he.symm)
    omega

/-- The edges of a vertex of a square matrix are its stored off-diagonal entries, in ascending order of the column, and their
numbers are consecutive from the start of the row. -/
theorem C50_edges (A : SpMat B) (hA : A.WF) (v : Nat) (hv : v < A.n) :
    (matrixEdges A v).map Prod.fst = ((A.row v).map Prod.fst).filter (· ≠ v) ∧
      (matrixEdges A v).map Prod.snd = List.range' (edgeStart A v) (matrixEdges A v).length := by
  refine ⟨matrixEdges_targets A v (hA v hv).1, ?_⟩
  unfold matrixEdges
  rw [edgesFrom_eq _ _ _ (cols_nodup (hA v hv).1), List.zipIdx_map_snd, List.length_zipIdx]

/-- Edge numbers of different vertices differ. -/
theorem C50_distinct (A : SpMat B) (hA : A.WF) (u v : Nat) (hu : u < A.n) (hv : v < A.n) (s t e : Nat)
    (h1 : (s, e) ∈ matrixEdges A u) (h2 : (t, e) ∈ matrixEdges A v) : u = v ∧ s = t := by
  have hb : ∀ w < A.n, ∀ x, (x, e) ∈ matrixEdges A w → edgeStart A w ≤ e ∧ e < edgeStart A (w + 1) := by
    intro w hw x hx
    obtain ⟨g1, g2⟩ := (edges_mem A w (hA w hw).1 x e).mp hx
    refine ⟨g1, ?_⟩
    obtain ⟨g3, _⟩ := List.getElem?_eq_some_iff.mp g2
    have := List.length_filter_le (fun x => decide (x ≠ w)) ((A.row w).map Prod.fst)
    rw [List.length_map] at this
    unfold edgeStart
    omega
  have hmono : ∀ w x, w ≤ x → edgeStart A w ≤ edgeStart A x := by
    intro w x h
    induction h with
    | refl => exact le_refl _
    | step _ ih => exact le_trans ih (by show _ ≤ edgeStart A _ + _; omega)
  have a1 := hb u hu s h1
  have a2 := hb v hv t h2
  have huv : u = v := by
    rcases Nat.lt_trichotomy u v with h | h | h
    · have := hmono (u + 1) v h; omega
    · exact h
    · have := hmono (v + 1) u h; omega
  subst huv
  refine ⟨rfl, ?_⟩
  have g1 := ((edges_mem A u (hA u hu).1 s e).mp h1).2
  have g2 := ((edges_mem A u (hA u hu).1 t e).mp h2).2
  rw [g1] at g2
  simpa using g2

theorem edgeStart_sum (A : SpMat B) (i : Nat) : edgeStart A i = ∑ k ∈ Finset.range i, (A.row k).length := by
  induction i with
  | zero => rfl
  | succ i ih => rw [edgeStart, ih, Finset.sum_range_succ]

/-- Every edge number is smaller than the number of stored entries of the matrix, which is the room made for edge properties. -/
theorem C50_range (A : SpMat B) (hA : A.WF) (v t e : Nat) (hv : v < A.n) (h : (t, e) ∈ matrixEdges A v) :
    e < ∑ k ∈ Finset.range A.n, (A.row k).length := by
  obtain ⟨g1, g2⟩ := (edges_mem A v (hA v hv).1 t e).mp h
  obtain ⟨g3, _⟩ := List.getElem?_eq_some_iff.mp g2
  have h1 := List.length_filter_le (fun x => decide (x ≠ v)) ((A.row v).map Prod.fst)
  rw [List.length_map] at h1
  have h2 : ∑ k ∈ Finset.range (v + 1), (A.row k).length ≤ ∑ k ∈ Finset.range A.n, (A.row k).length :=
    Finset.sum_le_sum_of_subset (Finset.range_mono hv)
  rw [Finset.sum_range_succ, ← edgeStart_sum] at h2
  omega

/-- `findEdge(source, target)` returns the number under which the edge iterator visits the edge, for every off-diagonal target,
provided the row stores its diagonal entry. -/
theorem C50_findEdge (A : SpMat B) (hA : A.WF) (v t e : Nat) (hv : v < A.n) (hd : A.Has v v) (ht : t ≠ v) :
    findEdge A v t = some e ↔ (t, e) ∈ matrixEdges A v := by
  have hasc : ((A.row v).map Prod.fst).Pairwise (· < ·) := (hA v hv).1
  have hnd := cols_nodup (hA v hv).1
  have hdm : v ∈ (A.row v).map Prod.fst := by
    obtain ⟨_, b, hb⟩ := hd
    exact List.mem_map.mpr ⟨(v, b), hb, rfl⟩
  rw [edges_mem A v (hA v hv).1]
  have key : ∀ i, ((A.row v).map Prod.fst)[i]? = some t →
      (((A.row v).map Prod.fst).filter (· ≠ v))[if t > v then i - 1 else i]? = some t := by
    intro i hi
    by_cases hgt : t > v
    · rw [if_pos hgt]; exact (sorted_filter_gt_get v _ hasc hdm i t hi hgt).2
    · rw [if_neg hgt]; exact sorted_filter_ne_get v _ hasc i t hi (by omega)
  constructor
  · intro h
    unfold findEdge at h
    cases hf : ((A.row v).map Prod.fst).findIdx? (· == t) with
    | none => rw [hf] at h; cases h
    | some i =>
      rw [hf] at h
      simp only [Option.some.injEq] at h
      have := key i ((findIdx?_get _ t hnd i).mp hf)
      subst h
      refine ⟨by omega, ?_⟩
      rw [Nat.add_sub_cancel_left]
      exact this
  · rintro ⟨h1, h2⟩
    have hm : t ∈ (A.row v).map Prod.fst := (List.mem_filter.mp (List.mem_of_getElem? h2)).1
    obtain ⟨i, hi⟩ := List.getElem?_of_mem hm
    have hk := key i hi
    have hnf : (((A.row v).map Prod.fst).filter (· ≠ v)).Nodup := hnd.filter _
    obtain ⟨l1, q1⟩ := List.getElem?_eq_some_iff.mp hk
    obtain ⟨l2, q2⟩ := List.getElem?_eq_some_iff.mp h2
    have := (List.Nodup.getElem_inj_iff hnf (hi := l1) (hj := l2)).mp (q1.trans q2.symm)
    unfold findEdge
    rw [(findIdx?_get _ t hnd i).mpr hi]
    simp only [Option.some.injEq]
    omega

/-- Without a stored diagonal the number is wrong: the row of vertex 0 stores only columns 1 and 2; the iterator visits edge (0,2)
under number 1, `findEdge` returns 0, the number of edge (0,1). -/
theorem C50_no_diagonal_counterexample :
    ∃ A : SpMat Nat, A.WF ∧ A.n = A.m ∧ matrixEdges A 0 = [(1, 0), (2, 1)] ∧ findEdge A 0 2 = some 0 := by
  refine ⟨⟨3, 3, fun i => if i = 0 then [(1, 5), (2, 6)] else []⟩, ?_, rfl, ?_, by decide +kernel⟩
  · intro i hi
    by_cases h : i = 0
    · subst h
      exact ⟨by simp [Row.Asc], by simp⟩
    · simp [h, Row.Asc]
  · unfold matrixEdges
    rw [edgesFrom_eq _ _ _ (by decide)]
    decide +kernel

/-- Non-vacuity: the tridiagonal pattern on three vertices. -/
example :
    let A : SpMat Nat := ⟨3, 3, fun i => match i with | 0 => [(0, 1), (1, 1)] | 1 => [(0, 1), (1, 1), (2, 1)] | 2 => [(1, 1), (2, 1)] | _ => []⟩
    matrixEdges A 1 = [(0, 2), (2, 3)] ∧ findEdge A 1 2 = some 3 ∧ findEdge A 1 0 = some 2 := by
  refine ⟨?_, by decide +kernel, by decide +kernel⟩
  unfold matrixEdges
  rw [edgesFrom_eq _ _ _ (by decide)]
  decide +kernel

end Amg
end Istl
