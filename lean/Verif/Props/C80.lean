import Verif.Lemmas.SubGraph2
import Verif.Props.C50
import Verif.Model.ParCoarsen

/-!
# C80 — the subgraph without the excluded vertices

The AMG aggregates the graph that is left when the overlap vertices of a process are excluded. For every well-formed square matrix
and all flags: the construction stays inside its arrays, and the result is the induced subgraph.
-/

namespace Istl
namespace Amg

variable {B : Type}

theorem degSum_le_edgeStart (A : SpMat B) (hA : A.WF) (G : Graph) (hG : matrixGraph A = .ok G) :
    ∀ k ≤ A.n, degSum G k ≤ edgeStart A k
  | 0, _ => by simp [degSum, edgeStart]
  | k + 1, hk => by
    have ih := degSum_le_edgeStart A hA G hG k (by omega)
    have : (G.adj k).length ≤ (A.row k).length := by
      unfold matrixGraph at hG
      split at hG
      · cases hG
      · simp only [Res.ok.injEq] at hG
        subst hG
        dsimp only
        rw [matrixEdges_targets A k (hA k (by omega)).1]
        exact le_trans (List.length_filter_le _ _) (by simp)
    simp only [degSum, edgeStart]
    omega

theorem matrixGraph_nodup (A : SpMat B) (hA : A.WF) (G : Graph) (hG : matrixGraph A = .ok G) (v : Nat) (hv : v < A.n) :
    (G.adj v).Pairwise (· < ·) := by
  unfold matrixGraph at hG
  split at hG
  · cases hG
  · simp only [Res.ok.injEq] at hG
    subst hG
    dsimp only
    rw [matrixEdges_targets A v (hA v hv).1]
    refine List.Pairwise.sublist List.filter_sublist ?_
    have := (hA v hv).1
    unfold Row.Asc at this
    simpa [List.pairwise_map] using this

theorem built_of (A : SpMat B) (hA : A.WF) (G : Graph) (hG : matrixGraph A = .ok G) (ex : List Bool) (hex : ex.length = A.n)
    (hn : 0 < A.n) : ∃ S, mkSubGraph G (edgeStart A A.n) ex = .ok S ∧ Built G ex S ∧ S.noVertices = (included A.n ex).length ∧
      S.numEdges = .ok (subCat G ex A.n).length ∧
      S.endVertex = (included A.n ex).foldl (fun m v => max v m) 0 + 1 := by
  obtain ⟨h1, h2, h3, h4⟩ := matrixGraph_wf A hA G hG
  have h := subGraph_ok (G := G) (ex := ex) (edgeStart A A.n) h3 (by omega)
    (by rw [h2]; exact degSum_le_edgeStart A hA G hG A.n (le_refl _)) (by omega)
  refine ⟨_, h, ⟨rfl, ⟨_, rfl⟩, rfl, rfl⟩, ?_, ?_, ?_⟩ <;> rw [← h2] <;> rfl

theorem subTargets_matrix (A : SpMat B) (hA : A.WF) (G : Graph) (hG : matrixGraph A = .ok G) (ex : List Bool) (v : Nat)
    (hv : v < A.n) : subTargets G ex v =
      if ex.getD v false then [] else (G.adj v).filter fun t => ex.getD t false = false := by
  unfold subTargets
  split
  · rfl
  · refine List.Pairwise.insertionSort_eq (r := fun a b : Nat => a ≤ b) ?_
    refine List.Pairwise.sublist List.filter_sublist ?_
    exact (matrixGraph_nodup A hA G hG v hv).imp fun h => Nat.le_of_lt h

/-- The construction from the graph of a non-empty matrix never leaves its arrays, and the iteration over the vertices ends and
visits exactly the vertices that are not excluded, once each, in ascending order; their number is `noVertices()`. -/
theorem C80_vertices (A : SpMat B) (hA : A.WF) (G : Graph) (hG : matrixGraph A = .ok G) (ex : List Bool)
    (hex : ex.length = A.n) (hn : 0 < A.n) : ∃ S, mkSubGraph G (edgeStart A A.n) ex = .ok S ∧
      (∀ fuel, A.n < fuel → S.vertices fuel = some (.ok (included A.n ex))) ∧ S.noVertices = (included A.n ex).length := by
  obtain ⟨S, h1, h2, h3, _, h5⟩ := built_of A hA G hG ex hex hn
  exact ⟨S, h1, fun fuel hf => vertices_ok S h2.excl A.n hn hex h5 fuel hf, h3⟩

/-- The edges of a vertex that is not excluded go to the vertices of its row that are not excluded either (but itself), in ascending
order; an excluded vertex has no edges. -/
theorem C80_edges (A : SpMat B) (hA : A.WF) (G : Graph) (hG : matrixGraph A = .ok G) (ex : List Bool) (hex : ex.length = A.n)
    (S : SubGraph) (hS : mkSubGraph G (edgeStart A A.n) ex = .ok S) (v : Nat) (hv : v < A.n) :
    ∃ l, S.edgesOf v = .ok l ∧ (l.map Prod.fst).Pairwise (· < ·) ∧
      ∀ t, t ∈ l.map Prod.fst ↔ A.Has v t ∧ t ≠ v ∧ ex.getD v false = false ∧ ex.getD t false = false := by
  obtain ⟨S', h1, h2, _⟩ := built_of A hA G hG ex hex (by omega)
  rw [hS] at h1
  cases h1
  obtain ⟨_, g2, _, g4⟩ := matrixGraph_wf A hA G hG
  refine ⟨_, edgesOf_built h2 v (by omega), ?_, ?_⟩
  · rw [List.zipIdx_map_fst, subTargets_matrix A hA G hG ex v hv]
    split
    · exact List.Pairwise.nil
    · exact List.Pairwise.sublist List.filter_sublist (matrixGraph_nodup A hA G hG v hv)
  · intro t
    rw [List.zipIdx_map_fst, mem_subTargets]
    unfold Joined
    rw [g4 v hv t]
    tauto

/-- The edge indices, read in the order of the iteration over vertices and edges, are `0, 1, ..., noEdges()-1`: the index map is
injective and fits the property vector of `noEdges()` entries, without gaps (unlike the edge numbers of the matrix graph). -/
theorem C80_indices (A : SpMat B) (hA : A.WF) (G : Graph) (hG : matrixGraph A = .ok G) (ex : List Bool) (hex : ex.length = A.n)
    (hn : 0 < A.n) (S : SubGraph) (hS : mkSubGraph G (edgeStart A A.n) ex = .ok S) :
    ∃ (k : Nat) (E : Nat → List (Nat × Nat)), S.numEdges = .ok k ∧ (∀ v < A.n, S.edgesOf v = .ok (E v)) ∧
      ((included A.n ex).flatMap fun v => (E v).map Prod.snd) = List.range k := by
  obtain ⟨S', h1, h2, _, h4, _⟩ := built_of A hA G hG ex hex hn
  rw [hS] at h1
  cases h1
  obtain ⟨_, g2, _, g4⟩ := matrixGraph_wf A hA G hG
  refine ⟨_, fun v => (subTargets G ex v).zipIdx (subCat G ex v).length, h4,
    fun v hv => edgesOf_built h2 v (by omega), ?_⟩
  rw [← indices_ok]
  unfold included
  generalize List.range A.n = l
  induction l with
  | nil => rfl
  | cons v l ih =>
    cases hx : ex.getD v false
    · rw [List.filter_cons_of_pos (by simp only [decide_eq_true_eq]; exact hx), List.flatMap_cons, List.flatMap_cons, ih]
    · rw [List.filter_cons_of_neg (by simp only [decide_eq_true_eq, Bool.not_eq_false]; exact hx), List.flatMap_cons, ih]
      unfold subTargets
      rw [if_pos hx]
      rfl

/-- `findEdge` finds an edge if and only if the edge iterators show it, with the same index: in particular it answers correctly for
excluded vertices, and whether or not the row stores its diagonal entry (unlike that of the matrix graph). -/
theorem C80_findEdge (A : SpMat B) (hA : A.WF) (G : Graph) (hG : matrixGraph A = .ok G) (ex : List Bool) (hex : ex.length = A.n)
    (S : SubGraph) (hS : mkSubGraph G (edgeStart A A.n) ex = .ok S) (v t : Nat) (hv : v < A.n) :
    ∃ r l, S.findEdge v t = .ok r ∧ S.edgesOf v = .ok l ∧ ∀ e, r = some e ↔ (t, e) ∈ l := by
  obtain ⟨S', h1, h2, _⟩ := built_of A hA G hG ex hex (by omega)
  rw [hS] at h1
  cases h1
  obtain ⟨_, g2, _, g4⟩ := matrixGraph_wf A hA G hG
  obtain ⟨r, f1, f2, f3⟩ := findEdge_built h2 v t (by omega)
  refine ⟨r, _, f1, edgesOf_built h2 v (by omega), fun e => ⟨f3 e, fun h => ?_⟩⟩
  have hnd : (subTargets G ex v).Nodup := by
    rw [subTargets_matrix A hA G hG ex v hv]
    split
    · exact List.nodup_nil
    · exact (List.Pairwise.sublist List.filter_sublist (matrixGraph_nodup A hA G hG v hv)).imp fun h => Nat.ne_of_lt h
  rw [List.mem_zipIdx_iff_le_and_getElem?_sub] at h
  have hm : Joined G ex v t := (mem_subTargets v t).mp (List.mem_of_getElem? h.2)
  cases r with
  | none => exact absurd hm (f2 rfl)
  | some e' =>
    have h' := f3 e' rfl
    rw [List.mem_zipIdx_iff_le_and_getElem?_sub] at h'
    obtain ⟨a1, a2⟩ := List.getElem?_eq_some_iff.mp h.2
    obtain ⟨b1, b2⟩ := List.getElem?_eq_some_iff.mp h'.2
    have := (List.Nodup.getElem_inj_iff hnd (hi := a1) (hj := b1)).mp (a2.trans b2.symm)
    have := h.1
    have := h'.1
    congr 1
    simp only at *
    omega

/-- With nothing excluded the subgraph has the vertices and edges of the matrix graph. -/
theorem C80_whole (A : SpMat B) (hA : A.WF) (G : Graph) (hG : matrixGraph A = .ok G) (hn : 0 < A.n) :
    ∃ S, mkSubGraph G (edgeStart A A.n) (List.replicate A.n false) = .ok S ∧
      (∀ fuel, A.n < fuel → S.vertices fuel = some (.ok (List.range A.n))) ∧
      ∀ v < A.n, ∃ l, S.edgesOf v = .ok l ∧ l.map Prod.fst = G.adj v := by
  obtain ⟨S, h1, h2, _, _, h5⟩ := built_of A hA G hG (List.replicate A.n false) (by simp) hn
  have hget : ∀ v, (List.replicate A.n false).getD v false = false := by
    intro v
    by_cases h : v < A.n <;> simp [List.getD, h]
  have hall : ∀ l : List Nat, (l.filter fun v => (List.replicate A.n false).getD v false = false) = l := by
    intro l
    rw [List.filter_eq_self]
    intro v _
    rw [hget v]
    rfl
  refine ⟨S, h1, fun fuel hf => ?_, fun v hv => ⟨_, edgesOf_built h2 v ?_, ?_⟩⟩
  · rw [vertices_ok S h2.excl A.n hn (by simp) h5 fuel hf]
    unfold included
    rw [hall]
  · rw [(matrixGraph_wf A hA G hG).2.1]; exact hv
  · rw [List.zipIdx_map_fst, subTargets_matrix A hA G hG _ v hv, hget v, if_neg (by simp), hall]

/-- The object in memory refines the graph that the theorems about parallel coarsening (C72, C73) are stated for. -/
theorem C80_refines (A : SpMat B) (hA : A.WF) (G : Graph) (hG : matrixGraph A = .ok G) (hn : 0 < A.n) (excl : Nat → Bool) :
    ∃ S, mkSubGraph G (edgeStart A A.n) ((List.range A.n).map excl) = .ok S ∧
      (∀ fuel, A.n < fuel → S.vertices fuel = some (.ok (subVerts A.n excl))) ∧
      ∀ v < A.n, ∃ l, S.edgesOf v = .ok l ∧ l.map Prod.fst = (subGraph G excl).adj v := by
  obtain ⟨S, h1, h2, _, _, h5⟩ := built_of A hA G hG ((List.range A.n).map excl) (by simp) hn
  obtain ⟨_, g2, g3, _⟩ := matrixGraph_wf A hA G hG
  have hget : ∀ v < A.n, ((List.range A.n).map excl).getD v false = excl v := by
    intro v hv
    simp [List.getD, hv]
  have hfil : ∀ l : List Nat, (∀ v ∈ l, v < A.n) →
      (l.filter fun v => ((List.range A.n).map excl).getD v false = false) = l.filter fun v => !excl v := by
    intro l hl
    apply List.filter_congr
    intro v hv
    rw [hget v (hl v hv)]
    cases excl v <;> rfl
  refine ⟨S, h1, fun fuel hf => ?_, fun v hv => ⟨_, edgesOf_built h2 v (by omega), ?_⟩⟩
  · rw [vertices_ok S h2.excl A.n hn (by simp) h5 fuel hf]
    unfold included subVerts
    rw [hfil _ (by simp)]
  · rw [List.zipIdx_map_fst]
    unfold subTargets subGraph
    rw [hget v hv]
    dsimp only
    rw [hfil _ fun t ht => by have := g3 v (by omega) t ht; omega]

/-- The flags: setting them by the indices of the index set stays inside the vector if the local indices are vertices, each local
index gets its own flag, all others keep theirs. -/
theorem C80_flags (idx : List (Nat × Bool)) (hd : (idx.map Prod.fst).Nodup) : ∀ (ex : List Bool), (∀ i ∈ idx, i.1 < ex.length) →
    ∃ ex', excludeFlags ex idx = .ok ex' ∧ ex'.length = ex.length ∧ (∀ i ∈ idx, ex'.getD i.1 false = i.2) ∧
      ∀ v, v ∉ idx.map Prod.fst → ex'.getD v false = ex.getD v false := by
  induction idx with
  | nil => intro ex _; exact ⟨ex, rfl, rfl, by simp, fun _ _ => rfl⟩
  | cons i idx ih =>
    intro ex hl
    rw [List.map_cons, List.nodup_cons] at hd
    have hi := hl i (by simp)
    obtain ⟨ex', h1, h2, h3, h4⟩ := ih hd.2 (ex.set i.1 i.2) (fun j hj => by
      have := hl j (by simp [hj]); simpa using this)
    refine ⟨ex', ?_, by simpa using h2, ?_, ?_⟩
    · unfold excludeFlags at h1 ⊢
      rw [List.foldlM_cons, wr_ok _ _ _ hi, Res.ok_bind]
      exact h1
    · intro j hj
      rcases List.mem_cons.mp hj with rfl | hj
      · rw [h4 _ hd.1]
        simp [List.getD, hi]
      · exact h3 j hj
    · intro v hv
      rw [List.map_cons, List.mem_cons, not_or] at hv
      rw [h4 v hv.2]
      simp [List.getD, List.getElem?_set_ne (Ne.symm hv.1)]

/-- A process without unknowns: the vertex iteration is empty, but `noEdges_` is never written, so `noEdges()`, which sizes the edge
properties right after the construction, reads an uninitialised member. -/
theorem C80_empty_uninitialised (G : Graph) (hn : G.n = 0) (cap : Nat) :
    ∃ S, mkSubGraph G cap [] = .ok S ∧ (∀ fuel, 0 < fuel → S.vertices fuel = some (.ok [])) ∧ S.numEdges = .ub := by
  refine ⟨_, by unfold mkSubGraph; rw [if_pos hn], ?_, rfl⟩
  intro fuel hf
  obtain ⟨f, rfl⟩ : ∃ f, fuel = f + 1 := ⟨fuel - 1, by omega⟩
  unfold SubGraph.vertices SubGraph.beginV
  rw [ctorSkip, if_pos rfl]
  dsimp only
  unfold SubGraph.walkV
  rw [if_pos rfl]

/-! ## Non-vacuity: a 4 × 4 matrix without a diagonal entry in row 2; vertex 1 is excluded -/

def subDemo : SpMat Int :=
  ⟨4, 4, fun i => match i with
    | 0 => [(0, 1), (1, 2), (3, 3)]
    | 1 => [(0, 4), (1, 5), (2, 6)]
    | 2 => [(0, 7), (1, 8), (3, 9)]
    | _ => [(0, 1), (2, 2), (3, 3)]⟩

theorem subDemo_wf : subDemo.WF := by
  intro i hi
  have : i < 4 := hi
  interval_cases i <;> constructor <;> simp [subDemo, Row.Asc]

/-- Its graph, written down. -/
def subDemoGraph : Graph := ⟨4, fun v => match v with
  | 0 => [1, 3]
  | 1 => [0, 2]
  | 2 => [0, 1, 3]
  | _ => [0, 2]⟩

example : ∃ G, matrixGraph subDemo = .ok G ∧ ∀ v < 4, G.adj v = subDemoGraph.adj v := by
  refine ⟨_, rfl, fun v hv => ?_⟩
  dsimp only
  rw [matrixEdges_targets subDemo v (subDemo_wf v hv).1]
  interval_cases v <;> rfl

/-- Observers of the subgraph. -/
def subDemoRun {α : Type} (f : SubGraph → Res α) : Res α := do
  let S ← mkSubGraph subDemoGraph (edgeStart subDemo 4) [false, true, false, false]
  f S

example : subDemoRun SubGraph.numEdges = .ok 5 ∧ subDemoRun (fun S => .ok (S.vertices 5)) = .ok (some (.ok [0, 2, 3])) ∧
    subDemoRun (SubGraph.edgesOf · 2) = .ok [(0, 1), (3, 2)] ∧ subDemoRun (SubGraph.findEdge · 2 3) = .ok (some 2) ∧
    subDemoRun (SubGraph.findEdge · 2 1) = .ok none ∧ subDemoRun (SubGraph.findEdge · 1 0) = .ok none := by
  refine ⟨?_, ?_, ?_, ?_, ?_, ?_⟩ <;> decide +kernel

end Amg
end Istl
