import Verif.Lemmas.Selection5
import Verif.Props.C42

/-!
# C70: how an aggregate chooses its vertices

`Spec/Selection` states the rules by counting edges and taking maxima. The whole aggregation follows them, and they determine the
aggregates.
-/

namespace Istl
namespace Amg

/-- C70. Aggregation follows the rules: every aggregate is grown from its seed by the vertices it wants, rounded by the vertices it
surrounds, and a single vertex joins its first strongly connected neighbour. The rules leave no choice: any two aggregations that
follow them agree on every vertex. (A graph as built from a matrix with a symmetric pattern; at least distance 1 allowed; degrees that
an `int` holds.) -/
theorem C70_aggregation (G : Graph) (hG : G.WF) (hsym : ∀ u t, u < G.n → t ∈ G.adj u → u ∈ G.adj t) (hloop : ∀ u, u < G.n → u ∉ G.adj u)
    (P : Props) (c : Crit) (hc : c.minSize ≤ c.maxSize) (hdist : 0 < c.maxDistance)
    (hdeg : ∀ v, v < G.n → (G.adj v).length < 2147483647) (fuel : Nat) (hf : G.n + 1 ≤ fuel) :
    ∃ b, buildAggregates G P c fuel = some (.ok b) ∧ Aggregation G P c G.n b.st ∧
      ∀ st, Aggregation G P c G.n st → st.agg = b.st.agg := by
  obtain ⟨b, e, h⟩ := build_aggregation hG hsym hloop P c hc hdist hdeg fuel hf
  exact ⟨b, e, h, fun st hst => (aggregation_base hst h).agg⟩

/-- C70. The candidates of one pass of `growAggregate`, in any state. -/
theorem C70_candidates (G : Graph) (P : Props) (st : AgSt) (hd : ∀ v ∈ st.front, (G.adj v).length < 2147483647) :
    candidates G P st = wanted G P st := candidates_spec hd

/-- C70. The candidate of one pass of `growIsolatedAggregate`, in any state: neither the distance nor the neighbouring aggregates of the
seed matter, although the code tests both (`distance` returns 0 and the list of neighbouring aggregates stays empty). -/
theorem C70_isolated (G : Graph) (c : Crit) (st : AgSt) (sd : Nat) :
    isoCandidate G c st (nonisoNeighbours sd) = wantedIsolated G st := isoCandidate_spec G st c

theorem best_sub {α : Type} [LinearOrder α] (f : Nat → α) (l : List Nat) {v : Nat} :
    v ∈ best f l ↔ v ∈ l ∧ ∀ u ∈ l, f u ≤ f v := by
  unfold best; rw [List.mem_filter]; simp

theorem best_ne_nil {α : Type} [LinearOrder α] (f : Nat → α) (l : List Nat) (h : l ≠ []) : best f l ≠ [] := by
  obtain ⟨m, hm, hmax⟩ : ∃ m ∈ l, ∀ u ∈ l, f u ≤ f m := by
    induction l with
    | nil => exact absurd rfl h
    | cons a l ih =>
      by_cases hl : l = []
      · subst hl; exact ⟨a, by simp, by simp⟩
      · obtain ⟨m, hm, hx⟩ := ih hl
        rcases le_total (f a) (f m) with h1 | h1
        · exact ⟨m, by simp [hm], fun u hu => by
            rcases List.mem_cons.mp hu with rfl | hu
            · exact h1
            · exact hx u hu⟩
        · exact ⟨a, by simp, fun u hu => by
            rcases List.mem_cons.mp hu with rfl | hu
            · exact le_refl _
            · exact (hx u hu).trans h1⟩
  intro hc
  have : m ∈ best f l := (best_sub f l).mpr ⟨hm, hmax⟩
  rw [hc] at this; cases this

theorem dropWhile_head_mem (B M : List Nat) (hsub : ∀ v ∈ B, v ∈ M) (hne : B ≠ []) :
    ∃ v r, (M.dropWhile fun v => decide (v ∉ B)) = v :: r ∧ v ∈ B := by
  induction M with
  | nil =>
    exfalso
    obtain ⟨x, hx⟩ := List.exists_mem_of_ne_nil _ hne
    have := hsub x hx
    simp at this
  | cons a M ih =>
    rw [List.dropWhile_cons]
    by_cases ha : a ∈ B
    · rw [if_neg (by simpa using ha)]; exact ⟨a, M, rfl, ha⟩
    · rw [if_pos (by simpa using ha)]
      refine ih fun v hv => ?_
      rcases List.mem_cons.mp (hsub v hv) with rfl | h
      · exact absurd hv ha
      · exact h

/-- C70. What the rules say about a single candidate: it is a front vertex, not isolated, and strongly depends on the aggregate. No
candidate has fewer mutual connections than another front vertex that is not isolated; only if no front vertex has a mutual connection
are one-way dependencies compared. Among equals no other front vertex has a larger share of edges to aggregates already connected. There
are candidates exactly if some front vertex that is not isolated depends on the aggregate, and the first candidate has the most front
neighbours among the equals. -/
theorem C70_candidate (G : Graph) (P : Props) (st : AgSt) (hd : ∀ v ∈ st.front, (G.adj v).length < 2147483647) :
    (∀ v ∈ candidates G P st, v ∈ st.front ∧ P.isolated v = false ∧ 0 < mutualEdges G P st v + dependEdges G P st v ∧
      ∀ u ∈ st.front, P.isolated u = false →
        mutualEdges G P st u ≤ mutualEdges G P st v ∧
        (mutualEdges G P st v = 0 → dependEdges G P st u ≤ dependEdges G P st v) ∧
        (mutualEdges G P st u = mutualEdges G P st v → (mutualEdges G P st v = 0 → dependEdges G P st u = dependEdges G P st v) →
          familiarity G st u ≤ familiarity G st v)) ∧
    (candidates G P st = [] ↔ ∀ v ∈ st.front, P.isolated v = false → mutualEdges G P st v + dependEdges G P st v = 0) ∧
    ∀ v r, candidates G P st = v :: r → ∀ u ∈ st.front, P.isolated u = false →
      mutualEdges G P st u = mutualEdges G P st v → (mutualEdges G P st v = 0 → dependEdges G P st u = dependEdges G P st v) →
      familiarity G st u = familiarity G st v → frontEdges G st u ≤ frontEdges G st v := by
  rw [candidates_spec hd]
  have hM : ∀ v, v ∈ mutualFront G P st ↔ v ∈ st.front ∧ P.isolated v = false ∧ 0 < mutualEdges G P st v := by
    intro v; unfold mutualFront; rw [List.mem_filter]; simp
  have hD : ∀ v, v ∈ dependFront G P st ↔ v ∈ st.front ∧ P.isolated v = false ∧ mutualEdges G P st v = 0 ∧ 0 < dependEdges G P st v := by
    intro v; unfold dependFront; rw [List.mem_filter]; simp
  by_cases hm : mutualFront G P st ≠ []
  · have e : wanted G P st = (mutualBest G P st).dropWhile fun v => decide (v ∉ best (frontEdges G st) (mutualBest G P st)) := by
      unfold wanted; rw [if_pos hm]
    have hB : ∀ v ∈ mutualBest G P st, v ∈ mutualFront G P st ∧ (∀ u ∈ mutualFront G P st, mutualEdges G P st u ≤ mutualEdges G P st v) ∧
        ∀ u ∈ mutualFront G P st, mutualEdges G P st u = mutualEdges G P st v → familiarity G st u ≤ familiarity G st v := by
      intro v hv
      obtain ⟨h1, h2⟩ := (best_sub _ _).mp hv
      obtain ⟨h3, h4⟩ := (best_sub _ _).mp h1
      refine ⟨h3, h4, fun u hu hue => h2 u ((best_sub _ _).mpr ⟨hu, fun w hw => ?_⟩)⟩
      rw [hue]; exact h4 w hw
    have hne : best (frontEdges G st) (mutualBest G P st) ≠ [] := best_ne_nil _ _ (best_ne_nil _ _ (best_ne_nil _ _ hm))
    obtain ⟨w, r, ew, hw⟩ := dropWhile_head_mem _ (mutualBest G P st) (fun v hv => ((best_sub _ _).mp hv).1) hne
    refine ⟨fun v hv => ?_, ⟨fun h => ?_, fun h => ?_⟩, fun v r' hv u hu hui h1 _ h3 => ?_⟩
    · rw [e] at hv
      obtain ⟨h1, h2, h3⟩ := hB v ((List.dropWhile_sublist _).subset hv)
      obtain ⟨g1, g2, g3⟩ := (hM v).mp h1
      refine ⟨g1, g2, by omega, fun u hu hui => ⟨?_, by omega, fun h4 _ => ?_⟩⟩
      · by_cases h0 : 0 < mutualEdges G P st u
        · exact h2 u ((hM u).mpr ⟨hu, hui, h0⟩)
        · omega
      · exact h3 u ((hM u).mpr ⟨hu, hui, by omega⟩) h4
    · rw [e, ew] at h; cases h
    · exfalso
      apply hm
      rw [List.eq_nil_iff_forall_not_mem]
      intro v hv
      obtain ⟨g1, g2, g3⟩ := (hM v).mp hv
      have := h v g1 g2
      omega
    · rw [e, ew] at hv
      cases hv
      obtain ⟨k1, k2⟩ := (best_sub _ _).mp hw
      obtain ⟨h4, h5, h6⟩ := hB w k1
      obtain ⟨-, -, g3⟩ := (hM w).mp h4
      have hum : u ∈ mutualFront G P st := (hM u).mpr ⟨hu, hui, by omega⟩
      refine k2 u ((best_sub _ _).mpr ⟨(best_sub _ _).mpr ⟨hum, fun x hx => by rw [h1]; exact h5 x hx⟩, fun x hx => ?_⟩)
      rw [h3]
      obtain ⟨x1, x2⟩ := (best_sub _ _).mp hx
      exact h6 x x1 (le_antisymm (h5 x x1) (h1 ▸ x2 u hum))
  · have e : wanted G P st = best (frontEdges G st) (best (familiarity G st) (best (dependEdges G P st) (dependFront G P st))) := by
      unfold wanted; rw [if_neg hm]
    push Not at hm
    have hz : ∀ u ∈ st.front, P.isolated u = false → mutualEdges G P st u = 0 := by
      intro u hu hui
      by_contra h0
      have := (hM u).mpr ⟨hu, hui, by omega⟩
      rw [hm] at this; cases this
    have hB : ∀ v ∈ wanted G P st, v ∈ dependFront G P st ∧ (∀ u ∈ dependFront G P st, dependEdges G P st u ≤ dependEdges G P st v) ∧
        (∀ u ∈ dependFront G P st, dependEdges G P st u = dependEdges G P st v → familiarity G st u ≤ familiarity G st v) ∧
        ∀ u ∈ dependFront G P st, dependEdges G P st u = dependEdges G P st v → familiarity G st u = familiarity G st v →
          frontEdges G st u ≤ frontEdges G st v := by
      intro v hv
      rw [e] at hv
      obtain ⟨h0, h0'⟩ := (best_sub _ _).mp hv
      obtain ⟨h1, h2⟩ := (best_sub _ _).mp h0
      obtain ⟨h3, h4⟩ := (best_sub _ _).mp h1
      have hb : ∀ u ∈ dependFront G P st, dependEdges G P st u = dependEdges G P st v →
          u ∈ best (dependEdges G P st) (dependFront G P st) := fun u hu hue =>
        (best_sub _ _).mpr ⟨hu, fun w hw => by rw [hue]; exact h4 w hw⟩
      refine ⟨h3, h4, fun u hu hue => h2 u (hb u hu hue), fun u hu hue huf => h0' u ((best_sub _ _).mpr ⟨hb u hu hue, fun w hw => ?_⟩)⟩
      rw [huf]; exact h2 w hw
    refine ⟨fun v hv => ?_, ⟨fun h => ?_, fun h => ?_⟩, fun v r' hv u hu hui h1 h2 h3 => ?_⟩
    · obtain ⟨h1, h2, h3, -⟩ := hB v hv
      obtain ⟨g1, g2, g3, g4⟩ := (hD v).mp h1
      refine ⟨g1, g2, by omega, fun u hu hui => ⟨by rw [hz u hu hui]; omega, fun _ => ?_, fun _ h4 => ?_⟩⟩
      · by_cases h0 : 0 < dependEdges G P st u
        · exact h2 u ((hD u).mpr ⟨hu, hui, hz u hu hui, h0⟩)
        · omega
      · have h5 := h4 g3
        exact h3 u ((hD u).mpr ⟨hu, hui, hz u hu hui, by omega⟩) h5
    · intro v hv hvi
      by_contra h0
      have hmem := (hD v).mpr ⟨hv, hvi, hz v hv hvi, by have := hz v hv hvi; omega⟩
      have hDne : dependFront G P st ≠ [] := fun hc => by rw [hc] at hmem; cases hmem
      exact best_ne_nil _ _ (best_ne_nil _ _ (best_ne_nil _ _ hDne)) (e.symm.trans h)
    · rw [List.eq_nil_iff_forall_not_mem]
      intro v hv
      obtain ⟨h1, -, -, -⟩ := hB v hv
      obtain ⟨g1, g2, g3, g4⟩ := (hD v).mp h1
      have := h v g1 g2
      omega
    · obtain ⟨h4, h5, -, h6⟩ := hB v (by rw [hv]; simp)
      obtain ⟨g1, g2, g3, g4⟩ := (hD v).mp h4
      have h7 := h2 g3
      exact h6 u ((hD u).mpr ⟨hu, hui, hz u hu hui, by omega⟩) h7 h3

/-! ## A concrete case -/

/-- 3×3 grid. -/
def grid33 : Graph := ⟨9, fun u => match u with
  | 0 => [1, 3] | 1 => [0, 2, 4] | 2 => [1, 5] | 3 => [0, 4, 6] | 4 => [1, 3, 5, 7] | 5 => [2, 4, 8] | 6 => [3, 7] | 7 => [4, 6, 8]
  | 8 => [5, 7] | _ => []⟩

/-- The hypotheses of `C70_aggregation` hold for the grid. -/
example : grid33.WF ∧ (∀ u t, u < grid33.n → t ∈ grid33.adj u → u ∈ grid33.adj t) ∧ (∀ u, u < grid33.n → u ∉ grid33.adj u) ∧
    ∀ v, v < grid33.n → (grid33.adj v).length < 2147483647 := by
  refine ⟨?_, ?_, ?_, ?_⟩
  · intro u hu t ht
    change u < 9 at hu
    change t < 9
    interval_cases u <;> simp [grid33] at ht <;> omega
  · intro u t hu ht
    change u < 9 at hu
    interval_cases u <;> simp [grid33] at ht <;> (try rcases ht with rfl | rfl | rfl | rfl) <;> simp [grid33]
  · intro u hu
    change u < 9 at hu
    interval_cases u <;> simp [grid33]
  · intro u hu
    change u < 9 at hu
    interval_cases u <;> simp [grid33]

/-- A state of the growth: the aggregate {0} of the grid, whose front is 1 and 3. -/
def gridSeeded : AgSt :=
  ⟨upd (fun _ => .unagg) 0 (.id 0), [1, 3], fun v => decide (v = 1 ∨ v = 3), [0], [.unagg, .id 0], 0⟩

/-- The same with the aggregate {0, 1, 3}: vertex 4 has two edges to it, 2 and 6 have one. -/
def gridGrown : AgSt :=
  ⟨fun v => if v = 0 ∨ v = 1 ∨ v = 3 then .id 0 else .unagg, [2, 4, 6], fun v => decide (v = 2 ∨ v = 4 ∨ v = 6), [0, 1, 3], [.unagg, .id 0], 0⟩

/-- Both front vertices are candidates if everything is connected strongly; only vertex 3 if vertex 1 depends on 0 without influencing
it; vertex 1 if it is the only one that depends on 0; none if nothing depends on 0. An isolated aggregate takes the last one. With three
vertices in the aggregate vertex 4 is wanted, or vertex 2 if vertex 4 is isolated and 6 depends on nothing. -/
example : candidates grid33 demoProps gridSeeded = [1, 3] ∧
    candidates grid33 { demoProps with infl := fun u t => decide (¬ (u = 1 ∧ t = 0)) } gridSeeded = [3] ∧
    candidates grid33 { demoProps with infl := fun _ _ => false, dep := fun u _ => decide (u = 1) } gridSeeded = [1] ∧
    candidates grid33 { demoProps with dep := fun _ t => decide (t ≠ 0) } gridSeeded = [] ∧
    isoCandidate grid33 ⟨2, 4, 2, 15, true⟩ gridSeeded [] = some 3 ∧
    candidates grid33 demoProps gridGrown = [4] ∧
    candidates grid33 { demoProps with isolated := fun v => decide (v = 4), dep := fun v _ => decide (v ≠ 6) } gridGrown = [2] ∧
    isoCandidate grid33 ⟨4, 4, 2, 15, true⟩ gridGrown [] = some 6 := by
  decide +kernel

end Amg
end Istl
