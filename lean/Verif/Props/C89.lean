import Verif.Lemmas.SubAggregator
import Verif.Model.SubAggregate
import Verif.Lemmas.ParCoarsen4
import Verif.Props.C41
import Verif.Props.C80
import Verif.Props.C86

/-!
# C89 — aggregation on several processes

Every process aggregates the vertices it owns, on the graph of its matrix without the others. For every square matrix whose pattern is
symmetric among the own vertices, every index set on its rows, all flags and all criteria with `minAggregateSize ≤ maxAggregateSize`.
-/

namespace Istl
namespace Amg
open Par
variable {B : Type}

/-- Couplings between own vertices are stored in both directions or not at all. -/
def OwnSymm (M : SpMat B) (A : PIS) : Prop := ∀ u t, ¬ Foreign A u → ¬ Foreign A t → M.Has u t → M.Has t u

/-- The graph of the own vertices: the off-diagonal couplings between them. -/
structure OwnGraph (M : SpMat B) (A : PIS) (G : Graph) : Prop where
  size : G.n = M.n
  edges : ∀ v, v < M.n → ∀ t, t ∈ G.adj v ↔ M.Has v t ∧ t ≠ v ∧ ¬ Foreign A v ∧ ¬ Foreign A t
  rest : ∀ v, M.n ≤ v → G.adj v = []

/-- The own vertices in ascending order. -/
def ownVertices (n : Nat) (A : PIS) : List Nat := (List.range n).filter fun v => ! decide (Foreign A v)

theorem own_subgraph {M : SpMat B} (hM : M.WF) (hsq : M.n = M.m) (hn : 0 < M.n) {A : PIS} (hA : PisOk A) (hloc : ∀ e ∈ A, e.loc < M.n) :
    ∃ S G, ownSubGraph M A = .ok S ∧ S.toGraph M.n = .ok G ∧ OwnGraph M A G ∧
      ∀ fuel, M.n < fuel → S.vertices fuel = some (.ok (ownVertices M.n A)) := by
  have hgr : matrixGraph M = .ok ⟨M.n, fun v => (matrixEdges M v).map Prod.fst⟩ := by
    unfold matrixGraph; rw [if_neg (by simp [hsq])]
  obtain ⟨ex, f1, f2, f3, f4⟩ := C80_flags (A.map fun e : Idx => (e.loc, decide (e.attr ≠ .owner))) (by
    rw [List.map_map]; exact hA.locs) (List.replicate M.n false) (by
      intro i hi
      obtain ⟨e, he, rfl⟩ := List.mem_map.mp hi
      simpa using hloc e he)
  rw [List.length_replicate] at f2
  have hex : ∀ v, ex.getD v false = decide (Foreign A v) := by
    intro v
    by_cases hv : ∃ e ∈ A, e.loc = v
    · obtain ⟨e, he, rfl⟩ := hv
      rw [f3 (e.loc, decide (e.attr ≠ .owner)) (List.mem_map.mpr ⟨e, he, rfl⟩)]
      rw [decide_eq_decide]
      constructor
      · intro h; exact ⟨e, he, rfl, h⟩
      · rintro ⟨f, hf, h1, h2⟩
        rw [← idx_eq_of_loc hA hf he h1]; exact h2
    · rw [f4 v]
      · have : ¬ Foreign A v := fun ⟨e, he, h, _⟩ => hv ⟨e, he, h⟩
        simp [this, List.getD_eq_getElem?_getD, List.getElem?_replicate]
        split <;> rfl
      · simp only [List.map_map, List.mem_map, not_exists, not_and]
        intro e he h
        exact hv ⟨e, he, h⟩
  obtain ⟨S, h1, h2, h3, h4, h5⟩ := built_of M hM _ hgr ex f2 hn
  have hS : ownSubGraph M A = .ok S := by
    unfold ownSubGraph
    rw [hgr, Res.ok_bind, f1, Res.ok_bind, h1, Res.ok_bind, h4, Res.ok_bind]
  have hE : ∀ v, ∃ l, v < M.n → S.edgesOf v = .ok l ∧
      ∀ t, t ∈ l.map Prod.fst ↔ M.Has v t ∧ t ≠ v ∧ ex.getD v false = false ∧ ex.getD t false = false := by
    intro v
    by_cases hv : v < M.n
    · obtain ⟨l, g1, -, g3⟩ := C80_edges M hM _ hgr ex f2 S h1 v hv
      exact ⟨l, fun _ => ⟨g1, g3⟩⟩
    · exact ⟨[], fun h => absurd h hv⟩
  choose E hE using hE
  refine ⟨S, ⟨M.n, fun v => ((List.range M.n).map fun v => (E v).map Prod.fst).getD v []⟩, hS, ?_, ⟨rfl, ?_, ?_⟩, ?_⟩
  · unfold SubGraph.toGraph
    rw [mapM_ok _ _ (fun v => (E v).map Prod.fst)]
    · rfl
    · intro v hv
      rw [(hE v (List.mem_range.mp hv)).1]
      rfl
  · intro v hv t
    have : ((List.range M.n).map fun v => (E v).map Prod.fst).getD v [] = (E v).map Prod.fst := by
      rw [List.getD_eq_getElem?_getD, List.getElem?_map, List.getElem?_range hv]
      rfl
    show t ∈ ((List.range M.n).map fun v => (E v).map Prod.fst).getD v [] ↔ _
    rw [this, (hE v hv).2 t, hex, hex]
    simp
  · intro v hv
    show ((List.range M.n).map fun v => (E v).map Prod.fst).getD v [] = []
    rw [List.getD_eq_getElem?_getD, List.getElem?_eq_none (by simpa using hv)]
    rfl
  · intro fuel hf
    rw [vertices_ok S h2.excl M.n hn f2 h5 fuel hf]
    congr 2
    unfold included ownVertices
    refine List.filter_congr fun v _ => ?_
    rw [hex]
    cases hd : decide (Foreign A v) <;> rfl

/-- **The subgraph**: the aggregator runs on the graph of the own vertices, over the own vertices in ascending order. -/
theorem C89_loop {M : SpMat B} (hM : M.WF) (hsq : M.n = M.m) (hn : 0 < M.n) {A : PIS} (hA : PisOk A) (hloc : ∀ e ∈ A, e.loc < M.n) :
    ∃ G, OwnGraph M A G ∧ ∀ P c fuel, M.n < fuel → aggregateOwn M A P c fuel =
      buildLoop G P c fuel (ownVertices M.n A) ⟨⟨fun _ => .unagg, [], fun _ => false, [], [], -1⟩, 0, 0, 0, 0, 1000000, 0, 0⟩ := by
  obtain ⟨S, G, h1, h2, h3, h4⟩ := own_subgraph hM hsq hn hA hloc
  refine ⟨G, h3, fun P c fuel hf => ?_⟩
  unfold aggregateOwn
  simp only [h1, h2, h4 fuel hf]

/-- **Like the sequential aggregation**: on a process with unknowns the aggregation ends without undefined behaviour and decides about
the own vertices as `buildAggregates` does on the graph of the own vertices with all others marked as excluded; the number of aggregates
is the same, and the map at the vertices of other processes is left as it was (undecided). -/
theorem C89_like_sequential {M : SpMat B} (hM : M.WF) (hsq : M.n = M.m) (hn : 0 < M.n) {A : PIS} (hA : PisOk A) (hloc : ∀ e ∈ A, e.loc < M.n)
    (hsym : OwnSymm M A) (P : Props) (c : Crit) (hc : c.minSize ≤ c.maxSize) (fuel : Nat) (hf : M.n + 1 ≤ fuel) :
    ∃ G b b', OwnGraph M A G ∧ aggregateOwn M A P c fuel = some (.ok b) ∧
      buildAggregates G { P with excluded := fun v => P.excluded v || decide (Foreign A v) } c fuel = some (.ok b') ∧
      (∀ v, ¬ Foreign A v → b.st.agg v = b'.st.agg v) ∧ b.con + b.iso = b'.con + b'.iso ∧
      (∀ v, Foreign A v → b.st.agg v = .unagg) ∧ (∀ v, Foreign A v → v < M.n → b'.st.agg v = .iso) := by
  obtain ⟨G, hG, hrun⟩ := C89_loop hM hsq hn hA hloc
  have hin : ∀ v, ∀ t ∈ G.adj v, v < M.n := by
    intro v t ht
    by_contra h
    rw [hG.rest v (by omega)] at ht
    cases ht
  have hGF : ∀ v, ∀ t ∈ G.adj v, (fun v => decide (Foreign A v)) t = false := by
    intro v t ht
    have := ((hG.edges v (hin v t ht) t).mp ht).2.2.2
    simpa using this
  have hwf : G.WF := by
    intro u hu t ht
    rw [hG.size] at hu ⊢
    obtain ⟨x, hx⟩ := (((hG.edges u hu t).mp ht).1).2
    rw [hsq]; exact (hM u hu).2 _ hx
  have hs : ∀ u t, u < G.n → t ∈ G.adj u → u ∈ G.adj t := by
    intro u t hu ht
    have ht' := hwf u hu t ht
    rw [hG.size] at hu ht'
    obtain ⟨k1, k2, k3, k4⟩ := (hG.edges u hu t).mp ht
    exact (hG.edges t ht' u).mpr ⟨hsym u t k3 k4 k1, k2.symm, k4, k3⟩
  have hl : ∀ u, u < G.n → u ∉ G.adj u := fun u hu h => ((hG.edges u (by rw [← hG.size]; exact hu) u).mp h).2.1 rfl
  obtain ⟨b', e', -, -, -, hun, -⟩ := C41_connected G hwf hs hl (P.without fun v => decide (Foreign A v)) c hc fuel (by rw [hG.size]; exact hf)
  have hsame := sim_loop (ex := fun v => decide (Foreign A v)) hGF P c fuel (List.range G.n) (fun _ => .unagg)
    ⟨⟨fun _ => .unagg, [], fun _ => false, [], [], -1⟩, 0, 0, 0, 0, 1000000, 0, 0⟩
    ⟨⟨fun _ => .unagg, [], fun _ => false, [], [], -1⟩, 0, 0, 0, 0, 1000000, 0, 0⟩ 0 (by simp [patchB, patch, unmarkFront]) (fun _ _ => .inl rfl)
  have e'' : buildLoop G (P.without fun v => decide (Foreign A v)) c fuel (List.range G.n)
      ⟨⟨fun _ => .unagg, [], fun _ => false, [], [], -1⟩, 0, 0, 0, 0, 1000000, 0, 0⟩ = some (.ok b') := e'
  rw [e''] at hsame
  have hlist : (List.range G.n).filter (fun v => ! decide (Foreign A v)) = ownVertices M.n A := by rw [hG.size]; rfl
  rw [hlist] at hsame
  have hb := hrun P c fuel (by omega)
  generalize hbl : buildLoop G P c fuel (ownVertices M.n A) ⟨⟨fun _ => .unagg, [], fun _ => false, [], [], -1⟩, 0, 0, 0, 0, 1000000, 0, 0⟩ = r at hsame hb
  cases hsame with
  | ok b _ h1 h2 h3 h4 =>
    refine ⟨G, b, b', hG, hb, e', fun v hv => (h1 v (by simpa using hv)).symm, by rw [h2, h3], ?_, ?_⟩
    · obtain ⟨k', hk⟩ := patch_loop (ex := fun v => decide (Foreign A v)) hGF P c fuel (fun _ => .unagg) (ownVertices M.n A)
        (fun v hv => by simpa [ownVertices] using (List.mem_filter.mp hv).2)
        ⟨⟨fun _ => .unagg, [], fun _ => false, [], [], -1⟩, 0, 0, 0, 0, 1000000, 0, 0⟩ 0
      have hid : patchB (fun v => decide (Foreign A v)) (fun _ => Agg.unagg) 0
          ⟨⟨fun _ => .unagg, [], fun _ => false, [], [], -1⟩, 0, 0, 0, 0, 1000000, 0, 0⟩ =
          ⟨⟨fun _ => .unagg, [], fun _ => false, [], [], -1⟩, 0, 0, 0, 0, 1000000, 0, 0⟩ := by simp [patchB, patch]
      rw [hid, hbl] at hk
      have : b = patchB (fun v => decide (Foreign A v)) (fun _ => Agg.unagg) k' b := Res.ok.inj (Option.some.inj hk)
      intro v hv
      rw [this]
      simp [patchB, patch, hv]
    · intro v hv hvn
      rcases h4 v (by simpa using hv) with h | h
      · exact absurd h (hun v (by rw [hG.size]; exact hvn))
      · exact h

/-- **Partition**: on a process with unknowns the aggregation ends without undefined behaviour; every own vertex is isolated or in an
aggregate whose number is below the number returned, every such number is used by an own vertex, and the vertices of other processes stay
undecided. -/
theorem C89_partition {M : SpMat B} (hM : M.WF) (hsq : M.n = M.m) (hn : 0 < M.n) {A : PIS} (hA : PisOk A) (hloc : ∀ e ∈ A, e.loc < M.n)
    (hsym : OwnSymm M A) (P : Props) (c : Crit) (hc : c.minSize ≤ c.maxSize) (fuel : Nat) (hf : M.n + 1 ≤ fuel) :
    ∃ b, aggregateOwn M A P c fuel = some (.ok b) ∧
      (∀ v < M.n, ¬ Foreign A v → b.st.agg v = .iso ∨ ∃ x < b.con + b.iso, b.st.agg v = .id x) ∧
      (∀ x < b.con + b.iso, ∃ v < M.n, ¬ Foreign A v ∧ b.st.agg v = .id x) ∧
      (∀ v, Foreign A v → b.st.agg v = .unagg) := by
  obtain ⟨G, b, b', hG, e, e', h1, h2, h3, h4⟩ := C89_like_sequential hM hsq hn hA hloc hsym P c hc fuel hf
  have hwf : G.WF := by
    intro u hu t ht
    rw [hG.size] at hu ⊢
    obtain ⟨x, hx⟩ := (((hG.edges u hu t).mp ht).1).2
    rw [hsq]; exact (hM u hu).2 _ hx
  have hs : ∀ u t, u < G.n → t ∈ G.adj u → u ∈ G.adj t := by
    intro u t hu ht
    have ht' := hwf u hu t ht
    rw [hG.size] at hu ht'
    obtain ⟨k1, k2, k3, k4⟩ := (hG.edges u hu t).mp ht
    exact (hG.edges t ht' u).mpr ⟨hsym u t k3 k4 k1, k2.symm, k4, k3⟩
  have hl : ∀ u, u < G.n → u ∉ G.adj u := fun u hu h => ((hG.edges u (by rw [← hG.size]; exact hu) u).mp h).2.1 rfl
  obtain ⟨b2, e2, q1, q2⟩ := C41_partition G hwf hs hl { P with excluded := fun v => P.excluded v || decide (Foreign A v) } c hc fuel
    (by rw [hG.size]; exact hf)
  rw [e'] at e2
  cases e2
  rw [hG.size, ← h2] at q1 q2
  refine ⟨b, e, fun v hv hF => by rw [h1 v hF]; exact q1 v hv, fun x hx => ?_, h3⟩
  obtain ⟨v, hv, hval⟩ := q2 x hx
  have hF : ¬ Foreign A v := fun hF => by rw [h4 v hF hv] at hval; cases hval
  exact ⟨v, hv, hF, by rw [h1 v hF]; exact hval⟩

/-- **Connected**: every aggregate can be walked through from its first vertex along couplings between its own vertices. -/
theorem C89_connected {M : SpMat B} (hM : M.WF) (hsq : M.n = M.m) (hn : 0 < M.n) {A : PIS} (hA : PisOk A) (hloc : ∀ e ∈ A, e.loc < M.n)
    (hsym : OwnSymm M A) (P : Props) (c : Crit) (hc : c.minSize ≤ c.maxSize) (fuel : Nat) (hf : M.n + 1 ≤ fuel) :
    ∃ b, aggregateOwn M A P c fuel = some (.ok b) ∧
      ∀ x f v, f < M.n → v < M.n → ¬ Foreign A f → ¬ Foreign A v → b.st.agg f = .id x → b.st.agg v = .id x →
        (∀ u < f, ¬ Foreign A u → b.st.agg u ≠ .id x) →
        Relation.ReflTransGen (fun u t => M.Has u t ∧ ¬ Foreign A t ∧ b.st.agg t = .id x) f v := by
  obtain ⟨G, b, b', hG, e, e', h1, h2, h3, h4⟩ := C89_like_sequential hM hsq hn hA hloc hsym P c hc fuel hf
  have hwf : G.WF := by
    intro u hu t ht
    rw [hG.size] at hu ⊢
    obtain ⟨x, hx⟩ := (((hG.edges u hu t).mp ht).1).2
    rw [hsq]; exact (hM u hu).2 _ hx
  have hs : ∀ u t, u < G.n → t ∈ G.adj u → u ∈ G.adj t := by
    intro u t hu ht
    have ht' := hwf u hu t ht
    rw [hG.size] at hu ht'
    obtain ⟨k1, k2, k3, k4⟩ := (hG.edges u hu t).mp ht
    exact (hG.edges t ht' u).mpr ⟨hsym u t k3 k4 k1, k2.symm, k4, k3⟩
  have hl : ∀ u, u < G.n → u ∉ G.adj u := fun u hu h => ((hG.edges u (by rw [← hG.size]; exact hu) u).mp h).2.1 rfl
  obtain ⟨b2, e2, q1, -⟩ := C41_connected G hwf hs hl { P with excluded := fun v => P.excluded v || decide (Foreign A v) } c hc fuel
    (by rw [hG.size]; exact hf)
  rw [e'] at e2
  cases e2
  refine ⟨b, e, fun x f v hfn hvn hF1 hF2 hx hy hfirst => ?_⟩
  have hif : IsFirst b'.st.agg f := by
    refine ⟨by rw [← h1 f hF1, hx]; simp, fun u hu => ?_⟩
    rw [← h1 f hF1, hx]
    by_cases hFu : Foreign A u
    · rw [h4 u hFu (by omega)]; simp
    · rw [← h1 u hFu]; exact hfirst u hu hFu
  have := q1 f v (by rw [hG.size]; exact hfn) (by rw [hG.size]; exact hvn) hif (by rw [← h1 f hF1, ← h1 v hF2, hx, hy])
  refine rtg_mono (fun u t hut => ?_) this
  have hu : u < M.n := by
    by_contra h
    have h5 := hut.1
    rw [hG.rest u (by omega)] at h5
    cases h5
  obtain ⟨k1, -, -, k4⟩ := (hG.edges u hu t).mp hut.1
  exact ⟨k1, k4, by rw [h1 t k4, hut.2, ← h1 f hF1, hx]⟩

/-- **What the parallel hierarchy needs** (C86): the aggregates of this aggregation are connected, decide about every own vertex and are
counted. -/
theorem C89_for_hierarchy (P : Bool → Nat → PIS → SpMat B → Props) (c : Crit) (hc : c.minSize ≤ c.maxSize) : AggrOk (ownAggr P c) := by
  intro finest p A M gr hM hgr hA hloc hcov hsy
  obtain ⟨hsq', hgn, -, hadj⟩ := matrixGraph_wf M hM gr hgr
  have hsq := hsq'.symm
  by_cases hn : 0 < M.n
  · have hown : ∀ v, v < M.n → ¬ Foreign A v → ∃ e ∈ A, e.loc = v ∧ e.attr = .owner := by
      intro v hv hF
      obtain ⟨e, he, hev⟩ := hcov v hv
      refine ⟨e, he, hev, ?_⟩
      by_contra h
      exact hF ⟨e, he, hev, h⟩
    have hnF : ∀ e ∈ A, e.attr = .owner → ¬ Foreign A e.loc := by
      rintro e he ho ⟨f, hf, h1, h2⟩
      rw [idx_eq_of_loc hA hf he h1] at h2
      exact h2 ho
    have hlt : ∀ u t, M.Has u t → u < M.n ∧ t < M.n := by
      rintro u t ⟨hu, x, hx⟩
      exact ⟨hu, by rw [hsq]; exact (hM u hu).2 _ hx⟩
    have hsym : OwnSymm M A := by
      intro u t hu ht h
      obtain ⟨e, he, rfl, ho⟩ := hown u (hlt u t h).1 hu
      obtain ⟨f, hf, rfl, ho'⟩ := hown t (hlt _ t h).2 ht
      exact hsy e he ho f hf ho' h
    obtain ⟨b, e1, q1, q2, q3⟩ := C89_partition hM hsq hn hA hloc hsym (P finest p A M) c hc (M.n + 1) (le_refl _)
    obtain ⟨b', e2, q4⟩ := C89_connected hM hsq hn hA hloc hsym (P finest p A M) c hc (M.n + 1) (le_refl _)
    rw [e1] at e2
    cases e2
    have hval : ownAggr P c finest p A M = (b.st.agg, b.con + b.iso) := by unfold ownAggr; rw [e1]
    rw [hval]
    refine ⟨?_, ?_, ?_⟩
    · intro f v hf hv hF ev
      rw [hgn] at hf hv
      have hFf : ¬ Foreign A f := fun h => hF.1 (by unfold ownMap; rw [if_pos h])
      have ef : ownMap A b.st.agg f = b.st.agg f := by unfold ownMap; rw [if_neg hFf]
      have hFv : ¬ Foreign A v := fun h => by
        have ev' : ownMap A b.st.agg v = .iso := by unfold ownMap; rw [if_pos h]
        rw [ev'] at ev
        exact hF.1 ev.symm
      have e' : ownMap A b.st.agg v = b.st.agg v := by unfold ownMap; rw [if_neg hFv]
      dsimp only at ev hF ⊢
      rw [ef, e'] at ev
      rcases q1 f hf hFf with h | ⟨x, -, hx⟩
      · exact absurd (ef.trans h) hF.1
      · have hfirst : ∀ u < f, ¬ Foreign A u → b.st.agg u ≠ .id x := by
          intro u hu hFu h
          refine hF.2 u hu ?_
          rw [ef, hx]
          unfold ownMap
          rw [if_neg hFu, h]
        refine refl_trans_noself (fun u t => ?_) (q4 x f v hf hv hFf hFv hx (ev.trans hx) hfirst)
        rintro ⟨k1, k2, k3⟩
        by_cases hut : t = u
        · exact .inl hut.symm
        · refine .inr ⟨(hadj u (hlt u t k1).1 t).mpr ⟨k1, hut⟩, ?_⟩
          rw [ef, hx]
          unfold ownMap
          rw [if_neg k2, k3]
    · intro e he ho
      rcases q1 e.loc (hloc e he) (hnF e he ho) with h | ⟨x, -, h⟩ <;> dsimp only <;> rw [h] <;> simp
    · have : ownAggs A b.st.agg = Finset.range (b.con + b.iso) := by
        ext a
        simp only [ownAggs, List.mem_toFinset, List.mem_filterMap, List.mem_filter, decide_eq_true_eq, Finset.mem_range]
        constructor
        · rintro ⟨e, ⟨he, ho⟩, h⟩
          rcases q1 e.loc (hloc e he) (hnF e he ho) with h' | ⟨x, hx, h'⟩
          · rw [h'] at h; cases h
          · rw [h'] at h
            rw [← Option.some.inj h]; exact hx
        · intro ha
          obtain ⟨v, hv, hF, h⟩ := q2 a ha
          obtain ⟨e, he, rfl, ho⟩ := hown v hv hF
          exact ⟨e, ⟨he, ho⟩, by rw [h]⟩
      dsimp only
      rw [this, Finset.card_range]
  · have hn0 : M.n = 0 := by omega
    have hA0 : A = [] := by
      cases A with
      | nil => rfl
      | cons e _ => have := hloc e (by simp); omega
    subst hA0
    have hval : ownAggr P c finest p [] M = (fun _ => .unagg, 0) := by
      unfold ownAggr
      have : aggregateOwn M [] (P finest p [] M) c (M.n + 1) = some .ub := by
        unfold aggregateOwn ownSubGraph
        rw [hgr, Res.ok_bind]
        have : excludeFlags (List.replicate M.n false) (([] : PIS).map fun e => (e.loc, decide (e.attr ≠ .owner))) = .ok [] := by rw [hn0]; rfl
        rw [this, Res.ok_bind]
        unfold mkSubGraph
        rw [if_pos (by omega)]
        rfl
      rw [this]
    rw [hval]
    refine ⟨?_, fun e he => by simp at he, rfl⟩
    intro f v hf
    omega

/-- **The hierarchy with this aggregation**: building it returns, and every run gives Galerkin products of the global matrix for maps all
processes agree on. -/
theorem C89_hierarchy [AddCommGroup B] {c : HierEnv B} {P : Bool → Nat → PIS → SpMat B → Props} {cr : Crit} (hc : cr.minSize ≤ cr.maxSize)
    (ha : c.aggr = ownAggr P cr) (o1 : AllArrive c.P c.order) (o2 : AllArrive c.P c.order') (o3 : AllArrive c.P c.order'') {A : DistLevel B}
    {𝒢 : Finset Nat} {M : Nat → Nat → B} (hA : Holding c.P A 𝒢 M) :
    (∃ lv last, BuildRun c A lv last) ∧ ∀ lv last, BuildRun c A lv last →
      levelAt lv last 0 = A ∧ lv.length ≤ c.crit.maxLevel ∧
      ∃ (G : Nat → Finset Nat) (Ms : Nat → Nat → Nat → B) (F : Nat → Nat → Option Nat), G 0 = 𝒢 ∧ Ms 0 = M ∧
        (∀ l, l < lv.length → G (l + 1) = coarseSet (G l) (F l) ∧ Ms (l + 1) = coarseMat (G l) (F l) (Ms l)) ∧
        (∀ l, l ≤ lv.length → Decomp c.P (levelAt lv last l).pis (levelAt lv last l).sz (G l) ∧
          OverlapMat c.P (levelAt lv last l).pis (levelAt lv last l).sz (G l) (levelAt lv last l).mat (Ms l)) ∧
        (∀ l, l < lv.length → Published c.P (levelAt lv last l).pis (levelAt lv last (l + 1)).pis (F l) (mapAt lv l)) := by
  have hok : AggrOk c.aggr := by rw [ha]; exact C89_for_hierarchy P cr hc
  exact ⟨C86_build_returns hok o1 o2 o3 hA, fun lv last hr => C86_galerkin hok o1 o2 o3 hA hr⟩

/-- A process without unknowns runs into the uninitialised number of edges (see C80) before it aggregates. -/
theorem C89_empty_uninitialised {M : SpMat B} (hn : M.n = 0) (hm : M.m = 0) (P : Props) (c : Crit) (fuel : Nat) :
    aggregateOwn M [] P c fuel = some .ub := by
  unfold aggregateOwn ownSubGraph matrixGraph
  rw [if_neg (by rw [hn, hm]; simp), Res.ok_bind]
  have : excludeFlags (List.replicate M.n false) (([] : PIS).map fun e => (e.loc, decide (e.attr ≠ .owner))) = .ok [] := by rw [hn]; rfl
  rw [this, Res.ok_bind]
  unfold mkSubGraph
  rw [if_pos hn]
  rfl

/-- Non-vacuity: two processes with two own vertices each and an overlap; process 0 makes one aggregate of its own vertices and decides
nothing about the others. -/
example : (pgMat 0).WF ∧ PisOk (pgPis 0) ∧ (∀ e ∈ pgPis 0, e.loc < (pgMat 0).n) ∧ OwnSymm (pgMat 0) (pgPis 0) ∧
    ((aggregateOwn (pgMat 0) (pgPis 0) demoProps ⟨2, 3, 2, 15, true⟩ 5).map fun r => r >>= fun b =>
      Res.ok ((List.range 4).map b.st.agg, b.con + b.iso)) = some (.ok ([.id 0, .id 0, .unagg, .unagg], 1)) := by
  refine ⟨pg_overlap.wf 0 (by omega), pg_decomp.ok 0 (by omega), pg_decomp.bounded 0 (by omega), ?_, by decide +kernel⟩
  intro u t hu ht h
  have hlt : u < 4 ∧ t < 4 := by
    obtain ⟨h1, x, hx⟩ := h
    exact ⟨h1, ((pg_overlap.wf 0 (by omega)) u h1).2 _ hx⟩
  obtain ⟨e, he, rfl⟩ := pg_decomp.covered 0 (by omega) u hlt.1
  obtain ⟨f, hf, rfl⟩ := pg_decomp.covered 0 (by omega) t hlt.2
  have ho : ∀ x : Idx, x ∈ pgPis 0 → ¬ Foreign (pgPis 0) x.loc → x.attr = .owner := by
    intro x hx hF
    by_contra h
    exact hF ⟨x, hx, rfl, h⟩
  exact ph_symm 0 (by omega) e he (ho e he hu) f hf (ho f hf ht) h

/-- Non-vacuity of the hierarchy theorem. -/
example : ∃ lv last, BuildRun { phEnv with aggr := ownAggr (fun _ _ _ _ => demoProps) ⟨2, 3, 2, 15, true⟩ } phLevel lv last :=
  have ho : AllArrive 2 fun _ => paOrder := fun _ => pa_order
  (C89_hierarchy (c := { phEnv with aggr := ownAggr (fun _ _ _ _ => demoProps) ⟨2, 3, 2, 15, true⟩ }) (by decide) rfl ho ho ho ph_holding).1

end Amg
end Istl
