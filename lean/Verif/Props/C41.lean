import Verif.Lemmas.Aggregator2
import Verif.Props.C44

/-!
# C41: aggregation partitions the graph

`buildAggregates` on a symmetric graph without self loops, with any dependency flags and `minAggregateSize ≤ maxAggregateSize`:
it ends within `n+1` passes of every inner loop, never runs into undefined behaviour, gives every vertex an aggregate or marks it
isolated, and the aggregate numbers are exactly those below the returned count.
-/

namespace Istl
namespace Amg

/-- C41. Termination and partition. `b.con + b.iso` is the returned number of aggregates. -/
theorem C41_partition (G : Graph) (hG : G.WF) (hsym : ∀ u t, u < G.n → t ∈ G.adj u → u ∈ G.adj t)
    (hloop : ∀ u, u < G.n → u ∉ G.adj u) (P : Props) (c : Crit) (hc : c.minSize ≤ c.maxSize) (fuel : Nat) (hf : G.n + 1 ≤ fuel) :
    ∃ b, buildAggregates G P c fuel = some (.ok b) ∧
      (∀ v < G.n, b.st.agg v = .iso ∨ ∃ x < b.con + b.iso, b.st.agg v = .id x) ∧
      (∀ x < b.con + b.iso, ∃ v < G.n, b.st.agg v = .id x) := by
  obtain ⟨b, e, h⟩ := build_inv hG hsym hloop P c hc fuel hf
  refine ⟨b, e, ?_, ?_⟩
  · intro v hv
    cases ha : b.st.agg v with
    | unagg => exact absurd ha (h.ai.below v hv)
    | iso => exact Or.inl rfl
    | id x => exact Or.inr ⟨x, h.ai.ids v x ha, rfl⟩
  · intro x hx
    obtain ⟨f, hfn, hf⟩ := h.ai.firsts x hx
    exact ⟨f, hfn, hf.val⟩

/-- C41. The aggregates are connected and numbered by their first vertices, and the map is one a greedy aggregation can make. -/
theorem C41_connected (G : Graph) (hG : G.WF) (hsym : ∀ u t, u < G.n → t ∈ G.adj u → u ∈ G.adj t)
    (hloop : ∀ u, u < G.n → u ∉ G.adj u) (P : Props) (c : Crit) (hc : c.minSize ≤ c.maxSize) (fuel : Nat) (hf : G.n + 1 ≤ fuel) :
    ∃ b, buildAggregates G P c fuel = some (.ok b) ∧ ConnectedAggs G b.st.agg ∧ Numbered G b.st.agg ∧
      numBelow b.st.agg G.n = b.con + b.iso ∧ (∀ v < G.n, b.st.agg v ≠ .unagg) ∧ Coarsened G P c G.n (b.con + b.iso) b.st.agg := by
  obtain ⟨b, e, h⟩ := build_inv hG hsym hloop P c hc fuel hf
  have key : ∀ f, f < G.n → IsFirst b.st.agg f → ∃ x, AggOk G P (max 1 c.maxSize) b.st.agg x f := by
    intro f hf hF
    cases ha : b.st.agg f with
    | unagg => exact absurd ha (h.ai.below f hf)
    | iso => exact absurd ha hF.1
    | id x =>
      obtain ⟨g, hg, hok⟩ := h.ai.firsts x (h.ai.ids f x ha)
      have : g = f := by
        rcases Nat.lt_trichotomy g f with hlt | heq | hlt
        · exact absurd (hok.val.trans ha.symm) (hF.2 g hlt)
        · exact heq
        · exact absurd (ha.trans hok.val.symm) (hok.first.2 f hlt)
      exact ⟨x, this ▸ hok⟩
  refine ⟨b, e, ?_, ?_, h.ai.numB, h.ai.below, h.hist⟩
  · intro f v hf hv hF ev
    obtain ⟨x, hok⟩ := key f hf hF
    have := hok.reach v (ev.trans hok.val)
    exact rtg_mono (fun u t hut => ⟨hut.1, hut.2.trans hok.val.symm⟩) this
  · intro f hf hF
    obtain ⟨x, hok⟩ := key f hf hF
    rw [hok.val, hok.num]

/-- C41. Renumbering after the aggregation (as the hierarchy does) leaves the map as it is. -/
theorem C41_renumber (G : Graph) (hG : G.WF) (hsym : ∀ u t, u < G.n → t ∈ G.adj u → u ∈ G.adj t)
    (hloop : ∀ u, u < G.n → u ∉ G.adj u) (P : Props) (c : Crit) (hc : c.minSize ≤ c.maxSize) (fuel : Nat) (hf : G.n + 1 ≤ fuel) :
    ∃ b s, buildAggregates G P c fuel = some (.ok b) ∧ renumberAggregates G fuel b.st.agg (fun _ => false) = some s ∧
      s.number = b.con + b.iso ∧ ∀ v < G.n, s.agg v = b.st.agg v := by
  obtain ⟨b, e, hcon, hnum, hcnt, hun, _⟩ := C41_connected G hG hsym hloop P c hc fuel hf
  obtain ⟨s, e', hk, hiso, hid, _⟩ := C43_numbers G hG b.st.agg hcon fuel hf
  refine ⟨b, s, e, e', by rw [hk, hcnt], ?_⟩
  intro v hv
  by_cases hi : b.st.agg v = .iso
  · rw [hiso v hv hi, hi]
  · obtain ⟨f, hfv, hF, hval⟩ := exists_first b.st.agg v hi
    rw [hid f v hv hF hval, hval, hnum f (by omega) hF]

section
variable {B : Type} [Ring B]

/-- C41 with C44: for a structurally symmetric square matrix, aggregation of its graph followed by the Galerkin product runs to the
end and gives `Pᵀ A P` for the map it made. -/
theorem C41_coarsening (A : SpMat B) (hA : A.WF) (hsq : A.n = A.m) (hsym : ∀ i j, A.Has i j → A.Has j i)
    (P : Props) (c : Crit) (hc : c.minSize ≤ c.maxSize) (fuel : Nat) (hf : A.n + 1 ≤ fuel) (junk : B) :
    ∃ G b rows C', matrixGraph A = .ok G ∧ buildAggregates G P c fuel = some (.ok b) ∧
      buildPattern G fuel b.st.agg (b.con + b.iso) = some (.ok rows) ∧
      calculate .ok A ((List.range A.n).map b.st.agg) (patternMat (b.con + b.iso) rows junk) = .ok C' ∧
      C'.n = b.con + b.iso ∧ C'.m = b.con + b.iso ∧ C'.WF ∧
      (∀ x < b.con + b.iso, ∀ y, C'.Has x y ↔ (y = x ∨ ∃ i j, A.Has i j ∧ b.st.agg i = .id x ∧ b.st.agg j = .id y)) ∧
      ∀ x < b.con + b.iso, ∀ y < b.con + b.iso, C'.entry x y = PtAP ((List.range A.n).map b.st.agg) A x y := by
  have hG : matrixGraph A = .ok ⟨A.n, fun v => (matrixEdges A v).map Prod.fst⟩ := by
    unfold matrixGraph; rw [if_neg (by simp [hsq])]
  generalize (⟨A.n, fun v => (matrixEdges A v).map Prod.fst⟩ : Graph) = G at hG
  obtain ⟨_, hGn, hGw, hadj⟩ := matrixGraph_wf A hA G hG
  have hs : ∀ u t, u < G.n → t ∈ G.adj u → u ∈ G.adj t := by
    intro u t hu ht
    have h1 := (hadj u (by omega) t).mp ht
    have h2 := hsym u t h1.1
    exact (hadj t h2.1 u).mpr ⟨h2, fun h => h1.2 h.symm⟩
  have hl : ∀ u, u < G.n → u ∉ G.adj u := fun u hu hc => ((hadj u (by omega) u).mp hc).2 rfl
  obtain ⟨b, e, hcon, hnum, hcnt, hun, _⟩ := C41_connected G hGw hs hl P c hc fuel (by omega)
  rw [hGn] at hcnt hun
  obtain ⟨rows, C', h1, h2, hn, hm, hw, h3, h4⟩ := C44_galerkin A hA G hG b.st.agg hun hcon hnum fuel hf junk (b.con + b.iso) hcnt.symm
  exact ⟨G, b, rows, C', hG, e, h1, h2, hn, hm, hw, h3, h4⟩

end

/-- All vertices strongly connected to their neighbours, none isolated. -/
def demoProps : Props := ⟨fun _ => false, fun _ => false, fun _ _ => true, fun _ _ => true⟩

/-- A concrete run: the path 0-1-2-3-4 with sizes between 2 and 3. -/
example : demoPath.WF ∧ (∀ u t, u < demoPath.n → t ∈ demoPath.adj u → u ∈ demoPath.adj t) ∧ (∀ u, u < demoPath.n → u ∉ demoPath.adj u) ∧
    ((buildAggregates demoPath demoProps ⟨2, 3, 2, 15, true⟩ 6).map fun r => r >>= fun b =>
      Res.ok ((List.range 5).map b.st.agg, b.con + b.iso)) = some (.ok ([.id 0, .id 0, .id 1, .id 1, .id 1], 2)) := by
  refine ⟨demoPath_wf, ?_, ?_, by decide +kernel⟩
  · intro u t hu ht
    change u < 5 at hu
    interval_cases u <;> simp [demoPath] at ht <;> (try rcases ht with rfl | rfl) <;> (try subst ht) <;> simp [demoPath]
  · intro u hu
    change u < 5 at hu
    interval_cases u <;> simp [demoPath]

/-- Two vertices with an edge. -/
def demoPair : Graph := ⟨2, fun u => if u = 0 then [1] else [0]⟩

/-- The state after seeding vertex 0 of `demoPair`. -/
def demoPairSeeded : AgSt :=
  match seed demoPair 0 (unmarkFront ⟨fun _ => .unagg, [], fun _ => false, [], [], -1⟩) with
  | .ok st => st
  | _ => ⟨fun _ => .unagg, [], fun _ => false, [], [], -1⟩

/-- With `minAggregateSize > maxAggregateSize` the growth loop need not end: on two strongly connected vertices with sizes 2 and 1
it adds nothing and tries again, for ever. -/
theorem C41_sizes_counterexample : ∀ fuel, buildAggregates demoPair demoProps ⟨2, 1, 2, 15, true⟩ fuel = none := by
  intro fuel
  have hfront : demoPairSeeded.front = [1] := by decide +kernel
  have hcand : candidates demoPair demoProps demoPairSeeded = [1] := by decide +kernel
  have hlen : demoPairSeeded.verts.length = 1 := by decide +kernel
  have hsort : sortFront [1] = [1] := by decide +kernel
  have hadd : addMany demoPair [] demoPairSeeded = demoPairSeeded := by
    have : setDifference demoPairSeeded.front [] = [1] := by rw [hfront, setDifference]
    unfold addMany
    dsimp only [List.foldl_nil]
    rw [this, hsort, ← hfront]
  have key : ∀ fuel dist, dist < 2 → grow demoPair demoProps ⟨2, 1, 2, 15, true⟩ 0 fuel dist demoPairSeeded = none := by
    intro fuel
    induction fuel with
    | zero => intros; rfl
    | succ fuel ih =>
      intro dist hd
      unfold grow
      dsimp only
      rw [if_pos ⟨by omega, hd⟩, hcand, if_neg (by simp), hlen]
      have : ([1].take (room ⟨2, 1, 2, 15, true⟩ 1) : List Nat) = [] := by decide
      rw [this, hadd]
      exact ih _ (by decide)
  have hseed : seed demoPair 0 (unmarkFront ⟨fun _ => .unagg, [], fun _ => false, [], [], -1⟩) = .ok demoPairSeeded := by rfl
  have hgf : growFrom demoPair demoProps ⟨2, 1, 2, 15, true⟩ fuel 0
      (unmarkFront ⟨fun _ => .unagg, [], fun _ => false, [], [], -1⟩) = none := by
    unfold growFrom
    rw [hseed]
    dsimp only
    rw [if_neg (by decide), key fuel 0 (by decide)]
    rfl
  unfold buildAggregates
  have : List.range demoPair.n = [0, 1] := by decide
  rw [this]
  unfold buildLoop
  rw [if_neg (by simp)]
  unfold buildSeed
  dsimp only
  rw [if_neg (by decide), if_neg (by decide), hgf]

/-- The statistics, seed by seed: a skipped vertex is counted as skipped and nothing else; a vertex put into the aggregate of a
neighbour changes no count; any other seed adds one to the isolated or to the connected aggregates, its size enters the minimum and
maximum, and it counts as an aggregate of one vertex if it has one vertex (and more were allowed). The sum kept for the average
counts such an aggregate twice. -/
theorem C41_statistics (G : Graph) (P : Props) (c : Crit) (fuel : Nat) (b b' : BuildSt) (i : Nat)
    (h : buildSeed G P c fuel b i = some (.ok b')) :
    ((P.excluded i = true ∨ (P.isolated i = true ∧ c.skipIsolated = true)) ∧ b'.st.agg i = .iso ∧ b'.skipped = b.skipped + 1 ∧
      (b'.con, b'.iso, b'.one, b'.minA, b'.maxA, b'.avg) = (b.con, b.iso, b.one, b.minA, b.maxA, b.avg)) ∨
    (¬ (P.excluded i = true ∨ (P.isolated i = true ∧ c.skipIsolated = true)) ∧ b'.skipped = b.skipped ∧
      ((P.isolated i = false ∧ (∃ t ∈ G.adj i, b'.st.agg i = b'.st.agg t) ∧ 1 < c.maxSize ∧
        (b'.con, b'.iso, b'.one, b'.minA, b'.maxA, b'.avg) = (b.con, b.iso, b.one, b.minA, b.maxA, b.avg + 1)) ∨
      (b'.con = b.con + (if P.isolated i then 0 else 1) ∧ b'.iso = b.iso + (if P.isolated i then 1 else 0) ∧
        b'.one = b.one + (if b'.st.verts.length = 1 ∧ 1 < c.maxSize then 1 else 0) ∧
        b'.minA = min b.minA b'.st.verts.length ∧ b'.maxA = max b.maxA b'.st.verts.length ∧
        b'.avg = b.avg + if b'.st.verts.length = 1 ∧ 1 < c.maxSize then 2 else b'.st.verts.length))) := by
  unfold buildSeed at h
  dsimp only at h
  by_cases hex : P.excluded i = true
  · rw [if_pos hex] at h
    cases h
    exact Or.inl ⟨Or.inl hex, by simp, rfl, rfl⟩
  · rw [if_neg hex] at h
    by_cases hsk : P.isolated i = true ∧ c.skipIsolated = true
    · rw [if_pos hsk] at h
      cases h
      exact Or.inl ⟨Or.inr hsk, by simp, rfl, rfl⟩
    · rw [if_neg hsk] at h
      right
      refine ⟨by tauto, ?_⟩
      cases hg : growFrom G P c fuel i (unmarkFront b.st) with
      | none => rw [hg] at h; cases h
      | some r =>
        cases r with
        | throw e => rw [hg] at h; cases h
        | ub => rw [hg] at h; cases h
        | ok s1 =>
          rw [hg] at h
          dsimp only at h
          cases hr : rounding G P c i fuel s1 with
          | none => rw [hr] at h; cases h
          | some s2 =>
            rw [hr, Option.map_some] at h
            cases h
            unfold finish
            by_cases h1 : s2.verts.length = 1 ∧ c.maxSize > 1
            · rw [if_pos h1]
              by_cases hi : P.isolated i = false
              · rw [if_pos hi]
                cases hm : mergeNeighbour G P s2 i with
                | some t =>
                  have ht := List.mem_of_find?_eq_some hm
                  refine ⟨rfl, Or.inl ⟨hi, ⟨t, ht, ?_⟩, h1.2, rfl⟩⟩
                  dsimp only
                  by_cases hti : t = i
                  · subst hti; rfl
                  · rw [upd_same, upd_ne _ _ hti]
                | none => exact ⟨rfl, Or.inr ⟨by simp [hi], by simp [hi], by simp [h1.1, h1.2], by simp [h1.1], by simp [h1.1],
                    by simp [h1.1, h1.2]⟩⟩
              · rw [if_neg hi]
                have hi' : P.isolated i = true := by simpa using hi
                exact ⟨rfl, Or.inr ⟨by simp [hi'], by simp [hi'], by simp [h1.1, h1.2], by simp [h1.1], by simp [h1.1],
                    by simp [h1.1, h1.2]⟩⟩
            · rw [if_neg h1]
              have h1' : ¬ (s2.verts.length = 1 ∧ 1 < c.maxSize) := h1
              by_cases hi : P.isolated i = true
              · rw [if_pos hi]
                refine ⟨rfl, Or.inr ⟨by simp [hi], by simp [hi], ?_, rfl, rfl, ?_⟩⟩ <;> dsimp only <;> rw [if_neg h1']; rfl
              · rw [if_neg hi]
                refine ⟨rfl, Or.inr ⟨by simp [hi], by simp [hi], ?_, rfl, rfl, ?_⟩⟩ <;> dsimp only <;> rw [if_neg h1']; rfl

/-- The counts start at zero, whatever the graph: without vertices all are zero. -/
theorem C41_statistics_start (adj : Nat → List Nat) (P : Props) (c : Crit) (fuel : Nat) :
    ∃ b, buildAggregates ⟨0, adj⟩ P c fuel = some (.ok b) ∧ (b.con, b.iso, b.one, b.skipped, b.maxA, b.avg) = (0, 0, 0, 0, 0, 0) :=
  ⟨_, rfl, rfl⟩

/-- A vertex that is neither isolated nor excluded can end up without an aggregate, uncounted: when it has a strong connection to
an excluded vertex and nothing else to grow with, it is "merged" with the excluded one. Vertex 0 is excluded, vertex 1 is not. -/
theorem C41_merge_excluded_counterexample :
    ((buildAggregates demoPair ⟨fun _ => false, fun v => v = 0, fun _ _ => true, fun _ _ => true⟩ ⟨2, 3, 2, 15, true⟩ 3).map
      fun r => r >>= fun b => Res.ok ((List.range 2).map b.st.agg, b.con + b.iso, b.skipped)) =
      some (.ok ([.iso, .iso], 0, 1)) := by decide +kernel

end Amg
end Istl
