import Verif.Lemmas.Bfs2

/-!
# C79: breadth first search within an aggregate

The search finds the vertices of the aggregate that can be reached, nearest first, returns the largest distance, calls the visitors once per
new vertex and once per edge to another aggregate, and leaves the flags as announced by its template arguments.
-/

namespace Istl
namespace Amg
variable {σ : Type}

/-- The whole contract, for any graph, aggregates map, unmarked start vertex, flags, visitors that do not change the aggregates map, and
all four template arguments. `vis` is the list of visited vertices. -/
theorem C79_search (G : Graph) (hG : G.WF) (V : Visitor σ) (hV : V.Passive) (A : Nat → Agg) (m : Nat → Bool) (d : σ) (hA : ∀ t, V.agg d t = A t)
    (start : Nat) (hs : start < G.n) (hm : m start = false) (a : Agg) (fuel : Nat) (hf : G.n + 1 ≤ fuel) (remove reset : Bool) :
    ∃ vis mark d' spheres, bfs G V remove reset fuel start a ⟨[], m, d⟩ = some (⟨if remove then [] else vis, mark, d'⟩, spheres) ∧
      -- what is visited
      vis.Nodup ∧ (∀ t, t ∈ vis ↔ ∃ k, Walk G a A m start k t) ∧
      -- nearest first
      vis.Pairwise (fun u t => ∃ j k, Distance G a A m start j u ∧ Distance G a A m start k t ∧ j ≤ k) ∧
      -- the number of spheres is the largest distance
      (∀ t ∈ vis, ∃ k ≤ spheres, Distance G a A m start k t) ∧ (∃ t ∈ vis, Distance G a A m start spheres t) ∧
      -- the flags
      (∀ t, mark t = true ↔ m t = true ∨ reset = false ∧ t ∈ vis) ∧
      -- the visitors
      ∃ log, d' = replay V d log ∧ start :: (log.filterMap Event.inner?).map Prod.snd = vis ∧
        (∀ e ∈ log.filterMap Event.inner?, ∃ k, Distance G a A m start k e.1 ∧ Distance G a A m start (k + 1) e.2 ∧ e.2 ∈ G.adj e.1) ∧
        log.filterMap Event.outer? = (vis.flatMap fun u => (G.adj u).map fun t => (u, t)).filter fun e => A e.2 ≠ a := by
  obtain ⟨s, sph, h, e⟩ := bfs_searched hG hs hm hV hA fuel hf remove reset (a := a)
  refine ⟨s.visited, _, s.data, sph, e, h.nodup, h.mem, h.sorted, h.far, h.sharp, ?_, h.log⟩
  intro t
  cases reset
  · simpa using h.marks t
  · simp

/-- With `reset` the flags are as before, so searches can follow each other. -/
theorem C79_reset (G : Graph) (hG : G.WF) (V : Visitor σ) (hV : V.Passive) (m : Nat → Bool) (d : σ)
    (start : Nat) (hs : start < G.n) (hm : m start = false) (a : Agg) (fuel : Nat) (hf : G.n + 1 ≤ fuel) (remove : Bool) :
    ∃ vis d' spheres, bfs G V remove true fuel start a ⟨[], m, d⟩ = some (⟨vis, m, d'⟩, spheres) := by
  obtain ⟨s, sph, h, e⟩ := bfs_searched hG hs hm hV (fun t => rfl) fuel hf remove true (a := a) (d0 := d)
  exact ⟨_, s.data, sph, e⟩

/-- A visitor that records the calls. -/
def recorder (A : Nat → Agg) : Visitor (List Event) where
  agg _ t := A t
  inner d u t := d ++ [.inner u t]
  outer d u t := d ++ [.outer u t]

theorem recorder_passive (A : Nat → Agg) : (recorder A).Passive := fun _ _ _ _ => ⟨rfl, rfl⟩

/-! ### Instances -/

/-- A path 0-1-2-3 with a chord 0-2 and a vertex 4 of another aggregate next to 3. -/
def demoGraph79 : Graph := ⟨5, fun u => match u with | 0 => [1, 2] | 1 => [0, 2] | 2 => [0, 1, 3] | 3 => [2, 4] | _ => [3]⟩
def demoAgg79 : Nat → Agg := fun v => if v = 4 then .id 1 else .id 0

theorem demoGraph79_wf : demoGraph79.WF := by
  intro u hu t ht
  change u < 5 at hu
  change t < 5
  interval_cases u <;> simp [demoGraph79] at ht <;> omega

example : ∃ vis mark d' spheres, bfs demoGraph79 (recorder demoAgg79) false true 6 1 (.id 0) ⟨[], fun _ => false, []⟩ = some (⟨vis, mark, d'⟩, spheres) ∧
    vis = [1, 0, 2, 3] ∧ spheres = 2 ∧ d' = [.inner 1 0, .inner 1 2, .inner 2 3, .outer 3 4] ∧ (∀ t, mark t = true ↔ False) := by
  obtain ⟨vis, mark, d', sp, e, -, -, -, -, -, h, -⟩ := C79_search demoGraph79 demoGraph79_wf (recorder demoAgg79) (recorder_passive _) demoAgg79
    (fun _ => false) [] (fun t => rfl) 1 (by decide) rfl (.id 0) 6 (by decide) false true
  have e2 : (bfs demoGraph79 (recorder demoAgg79) false true 6 1 (.id 0) ⟨[], fun _ => false, []⟩).map (fun r => (r.1.visited, r.2, r.1.data)) =
      some ([1, 0, 2, 3], 2, [.inner 1 0, .inner 1 2, .inner 2 3, .outer 3 4]) := by decide +kernel
  rw [e] at e2
  simp only [Option.map_some, Option.some.injEq, Prod.mk.injEq] at e2
  refine ⟨vis, mark, d', sp, e, e2.1, e2.2.1, e2.2.2, ?_⟩
  intro t
  rw [h t]
  simp

/-- Starting at a marked vertex, or with a list that is not empty, is not covered: the vertices on the list are then searched from again. -/
theorem C79_nonempty_list_counterexample :
    ((bfs demoGraph79 (recorder demoAgg79) false false 6 0 (.id 0) ⟨[4], fun _ => false, []⟩).map fun r => r.1.visited) = some [4, 0, 3, 1, 2] ∧
    ((bfs demoGraph79 (recorder demoAgg79) false false 6 0 (.id 0) ⟨[4], fun _ => false, []⟩).map fun r => r.2) = some 1 := by
  decide +kernel

end Amg
end Istl
