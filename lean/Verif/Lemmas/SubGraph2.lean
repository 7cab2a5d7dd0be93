import Verif.Lemmas.SubGraph

/-! # Lemmas: reading a subgraph -/

namespace Istl
namespace Amg

variable {G : Graph} {ex : List Bool}

theorem rdCell_fill (L R : List Nat) (T : List (Option Nat)) (a t : Nat) (h : L[a]? = some t) :
    rdCell (L.map some ++ T) a = .ok t := by
  unfold rdCell rd
  have ha : a < L.length := (List.getElem?_eq_some_iff.mp h).1
  rw [List.getElem?_append_left (by simpa using ha), List.getElem?_map, h]
  rfl

theorem walkEdges_fill (T : List (Option Nat)) : ∀ (M L R : List Nat),
    walkEdges ((L ++ M ++ R).map some ++ T) L.length M.length = .ok (M.zipIdx L.length)
  | [], L, R => rfl
  | t :: M, L, R => by
    have h : (L ++ (t :: M) ++ R)[L.length]? = some t := by simp
    rw [List.length_cons]
    unfold walkEdges
    rw [rdCell_fill _ [] _ _ _ h, Res.ok_bind]
    have ih := walkEdges_fill T M (L ++ [t]) R
    have e : L ++ [t] ++ M ++ R = L ++ (t :: M) ++ R := by simp
    rw [e, List.length_append, List.length_singleton] at ih
    rw [ih, Res.ok_bind]
    rfl

theorem lowerBound_fill (T : List (Option Nat)) (x : Nat) : ∀ (M L R : List Nat),
    lowerBound ((L ++ M ++ R).map some ++ T) x L.length M.length =
      .ok (L.length + (M.takeWhile fun t => decide (t < x)).length)
  | [], L, R => rfl
  | t :: M, L, R => by
    have h : (L ++ (t :: M) ++ R)[L.length]? = some t := by simp
    rw [List.length_cons]
    unfold lowerBound
    rw [rdCell_fill _ [] _ _ _ h, Res.ok_bind]
    by_cases hx : t < x
    · rw [if_pos hx, List.takeWhile_cons_of_pos (by simp [hx])]
      have ih := lowerBound_fill T x M (L ++ [t]) R
      have e : L ++ [t] ++ M ++ R = L ++ (t :: M) ++ R := by simp
      rw [e, List.length_append, List.length_singleton] at ih
      rw [ih, List.length_cons]
      congr 1
      omega
    · rw [if_neg hx, List.takeWhile_cons_of_neg (by simp [hx])]
      simp

theorem subCat_split : ∀ (n v : Nat), v < n → ∃ R, subCat G ex n = subCat G ex v ++ subTargets G ex v ++ R
  | 0, v, h => absurd h (by omega)
  | n + 1, v, h => by
    by_cases hv : v = n
    · subst hv; exact ⟨[], by simp [subCat]⟩
    · obtain ⟨R, hR⟩ := subCat_split n v (by omega)
      exact ⟨R ++ subTargets G ex n, by rw [subCat, hR]; simp⟩

theorem rdCell_range (g : Nat → Int) (n v : Nat) (h : v < n) :
    rdCell ((List.range n).map fun v => if v < n then some (g v) else none) v = .ok (g v) := by
  unfold rdCell rd
  rw [List.getElem?_map, List.getElem?_range h]
  simp [h]

theorem rd_start (v : Nat) (h : v < G.n) :
    rdCell (startsTo G ex G.n) v = .ok (if ex.getD v false then -1 else ((subCat G ex v).length : Int)) :=
  rdCell_range (fun v => if ex.getD v false then -1 else ((subCat G ex v).length : Int)) G.n v h

theorem rd_stop (v : Nat) (h : v < G.n) :
    rdCell (stopsTo G ex G.n) v = .ok (if ex.getD v false then -1 else ((subCat G ex (v + 1)).length : Int)) :=
  rdCell_range (fun v => if ex.getD v false then -1 else ((subCat G ex (v + 1)).length : Int)) G.n v h

/-- The members after the construction. -/
structure Built (G : Graph) (ex : List Bool) (S : SubGraph) : Prop where
  excl : S.excluded = ex
  edges : ∃ T, S.edges = (subCat G ex G.n).map some ++ T
  start : S.start = startsTo G ex G.n
  stop : S.stop = stopsTo G ex G.n

theorem edgesOf_built {S : SubGraph} (h : Built G ex S) (v : Nat) (hv : v < G.n) :
    S.edgesOf v = .ok ((subTargets G ex v).zipIdx (subCat G ex v).length) := by
  unfold SubGraph.edgesOf
  rw [h.start, h.stop, rd_start v hv, rd_stop v hv, Res.ok_bind, Res.ok_bind]
  by_cases hx : ex.getD v false = true
  · rw [if_pos hx, if_pos hx, if_pos rfl]
    unfold subTargets
    rw [if_pos hx]
    rfl
  · rw [if_neg hx, if_neg hx]
    have hl : (subCat G ex (v + 1)).length = (subCat G ex v).length + (subTargets G ex v).length := by
      simp [subCat]
    by_cases h0 : (subTargets G ex v).length = 0
    · rw [if_pos (by omega), List.length_eq_zero_iff.mp h0]
      rfl
    · rw [if_neg (by omega), if_pos (by omega)]
      obtain ⟨R, hR⟩ := subCat_split (G := G) (ex := ex) G.n v hv
      obtain ⟨T, hT⟩ := h.edges
      have e1 : ((subCat G ex v).length : Int).toNat = (subCat G ex v).length := by omega
      have e2 : (((subCat G ex (v + 1)).length : Int) - ((subCat G ex v).length : Int)).toNat = (subTargets G ex v).length := by
        omega
      rw [e1, e2, hT, hR]
      exact walkEdges_fill T _ _ R

theorem sorted_takeWhile (x : Nat) : ∀ (M : List Nat), M.Pairwise (· ≤ ·) →
    (M[(M.takeWhile fun t => decide (t < x)).length]? = some x ↔ x ∈ M) ∧
    ∀ e < (M.takeWhile fun t => decide (t < x)).length, M[e]? ≠ some x
  | [], _ => by simp
  | t :: M, h => by
    rw [List.pairwise_cons] at h
    obtain ⟨ih1, ih2⟩ := sorted_takeWhile x M h.2
    by_cases hx : t < x
    · rw [List.takeWhile_cons_of_pos (by simp [hx]), List.length_cons]
      refine ⟨?_, ?_⟩
      · rw [List.getElem?_cons_succ, ih1, List.mem_cons]
        constructor
        · exact Or.inr
        · rintro (rfl | h)
          · omega
          · exact h
      · intro e he
        cases e with
        | zero => simp; omega
        | succ e => rw [List.getElem?_cons_succ]; exact ih2 e (by omega)
    · rw [List.takeWhile_cons_of_neg (by simp [hx])]
      refine ⟨?_, by simp⟩
      simp only [List.length_nil, List.getElem?_cons_zero, Option.some.injEq, List.mem_cons]
      constructor
      · rintro rfl; exact Or.inl rfl
      · rintro (rfl | h')
        · rfl
        · have := h.1 x h'; omega

theorem subTargets_sorted (v : Nat) : (subTargets G ex v).Pairwise (· ≤ ·) := by
  unfold subTargets
  split
  · exact List.Pairwise.nil
  · exact List.pairwise_insertionSort (r := fun a b : Nat => a ≤ b) _

theorem mem_subTargets (v t : Nat) : t ∈ subTargets G ex v ↔ Joined G ex v t := by
  unfold subTargets Joined
  by_cases hx : ex.getD v false = true
  · rw [if_pos hx, hx]; simp
  · rw [if_neg hx]
    have hx' : ex.getD v false = false := by simpa using hx
    rw [hx', List.mem_insertionSort, List.mem_filter]
    simp only [decide_eq_true_eq, true_and]
    exact and_comm

theorem findEdge_built {S : SubGraph} (h : Built G ex S) (v x : Nat) (hv : v < G.n) :
    ∃ r, S.findEdge v x = .ok r ∧
      (r = none → ¬ Joined G ex v x) ∧
      ∀ e, r = some e → (x, e) ∈ (subTargets G ex v).zipIdx (subCat G ex v).length := by
  unfold SubGraph.findEdge
  rw [h.start, h.stop, rd_start v hv, rd_stop v hv, Res.ok_bind, Res.ok_bind]
  rw [← mem_subTargets]
  by_cases hx : ex.getD v false = true
  · rw [if_pos hx, if_pos hx, if_pos rfl]
    refine ⟨none, rfl, ?_, by simp⟩
    intro _
    unfold subTargets
    rw [if_pos hx]
    simp
  · rw [if_neg hx, if_neg hx]
    have hl : (subCat G ex (v + 1)).length = (subCat G ex v).length + (subTargets G ex v).length := by
      simp [subCat]
    by_cases h0 : (subTargets G ex v).length = 0
    · rw [if_pos (by omega), List.length_eq_zero_iff.mp h0]
      exact ⟨none, rfl, by simp, by simp⟩
    · rw [if_neg (by omega), if_pos (by omega)]
      obtain ⟨R, hR⟩ := subCat_split (G := G) (ex := ex) G.n v hv
      obtain ⟨T, hT⟩ := h.edges
      have e1 : ((subCat G ex v).length : Int).toNat = (subCat G ex v).length := by omega
      have e2 : (((subCat G ex (v + 1)).length : Int) - ((subCat G ex v).length : Int)).toNat = (subTargets G ex v).length := by
        omega
      rw [e1, e2, hT, hR, lowerBound_fill, Res.ok_bind, hl]
      obtain ⟨s1, s2⟩ := sorted_takeWhile x _ (subTargets_sorted (G := G) (ex := ex) v)
      have hle : ((subTargets G ex v).takeWhile fun t => decide (t < x)).length ≤ (subTargets G ex v).length :=
        (List.takeWhile_sublist _).length_le
      generalize ((subTargets G ex v).takeWhile fun t => decide (t < x)).length = j at *
      by_cases hj : j = (subTargets G ex v).length
      · rw [if_pos (by subst hj; push_cast; rfl)]
        refine ⟨none, rfl, ?_, by simp⟩
        intro _ hm
        have := s1.mpr hm
        rw [hj] at this
        simp at this
      · rw [if_neg (by push_cast; omega)]
        have hj' : j < (subTargets G ex v).length := by omega
        have hg : (subCat G ex v ++ subTargets G ex v ++ R)[(subCat G ex v).length + j]? = some (subTargets G ex v)[j] := by
          rw [List.append_assoc, List.getElem?_append_right (by omega), Nat.add_sub_cancel_left,
            List.getElem?_append_left hj', List.getElem?_eq_getElem hj']
        rw [rdCell_fill _ [] _ _ _ hg, Res.ok_bind]
        by_cases hx2 : (subTargets G ex v)[j] = x
        · rw [if_neg (by simpa using hx2)]
          refine ⟨_, rfl, by simp, ?_⟩
          intro e he
          cases he
          rw [List.mem_zipIdx_iff_le_and_getElem?_sub]
          refine ⟨by simp, ?_⟩
          simp only [Nat.add_sub_cancel_left]
          rw [List.getElem?_eq_getElem hj', hx2]
        · rw [if_pos (by simpa using hx2)]
          refine ⟨none, rfl, ?_, by simp⟩
          intro _ hm
          have := s1.mpr hm
          rw [List.getElem?_eq_getElem hj'] at this
          exact hx2 (by simpa using this)

/-! ## Iterating over the vertices -/

theorem ctorSkip_eq (ex : List Bool) (E c : Nat) : ctorSkip ex E c c = incSkip ex E c := by
  by_cases h : c < ex.length
  · unfold ctorSkip incSkip
    rw [dif_pos h, dif_pos h, ctorSkip_eq ex E (c + 1)]
  · unfold ctorSkip incSkip
    rw [dif_neg h, dif_neg h]
termination_by ex.length - c

theorem incSkip_ok (E c : Nat) (hc : c ≤ E) (hE : E ≤ ex.length) :
    ∃ w, incSkip ex E c = .ok w ∧ c ≤ w ∧ w ≤ E ∧ (∀ u, c ≤ u → u < w → ex.getD u false = true) ∧
      (w = E ∨ ex.getD w false = false) := by
  unfold incSkip
  by_cases h : c = E
  · rw [if_pos h]
    exact ⟨c, rfl, le_refl _, hc, fun u h1 h2 => by omega, Or.inl h⟩
  · rw [if_neg h, dif_pos (by omega)]
    have hg : ex.getD c false = ex[c]'(by omega) := by simp [List.getD, List.getElem?_eq_getElem (show c < ex.length by omega)]
    by_cases hx : ex[c]'(by omega) = true
    · rw [if_pos hx]
      obtain ⟨w, h1, h2, h3, h4, h5⟩ := incSkip_ok E (c + 1) (by omega) hE
      refine ⟨w, h1, by omega, h3, ?_, h5⟩
      intro u hu1 hu2
      by_cases hu : u = c
      · subst hu; rw [hg]; exact hx
      · exact h4 u (by omega) hu2
    · rw [if_neg hx]
      exact ⟨c, rfl, le_refl _, hc, fun u h1 h2 => by omega, Or.inr (by rw [hg]; simpa using hx)⟩
termination_by E - c

theorem filter_skip (E c w : Nat) (hc : c ≤ w) (hw : w ≤ E) (h : ∀ u, c ≤ u → u < w → ex.getD u false = true) :
    (List.range' c (E - c)).filter (fun v => ex.getD v false = false) =
      (List.range' w (E - w)).filter fun v => ex.getD v false = false := by
  have e : List.range' c (E - c) = List.range' c (w - c) ++ List.range' w (E - w) := by
    have h1 : E - c = (w - c) + (E - w) := by omega
    rw [h1, ← List.range'_append_1]
    congr 2
    omega
  rw [e, List.filter_append]
  have : (List.range' c (w - c)).filter (fun v => ex.getD v false = false) = [] := by
    rw [List.filter_eq_nil_iff]
    intro v hv
    rw [List.mem_range'_1] at hv
    simp only [decide_eq_true_eq, Bool.not_eq_false]
    exact h v hv.1 (by omega)
  rw [this, List.nil_append]

theorem walkV_ok (S : SubGraph) (hex : S.excluded = ex) (hE : S.endVertex ≤ ex.length) : ∀ (fuel v : Nat), v ≤ S.endVertex →
    S.endVertex - v < fuel → (v = S.endVertex ∨ ex.getD v false = false) →
    S.walkV fuel v = some (.ok ((List.range' v (S.endVertex - v)).filter fun v => ex.getD v false = false))
  | 0, _, _, h, _ => absurd h (by omega)
  | fuel + 1, v, hv, hf, hx => by
    unfold SubGraph.walkV
    by_cases h : v = S.endVertex
    · rw [if_pos h, h]; simp
    · rw [if_neg h]
      obtain ⟨w, h1, h2, h3, h4, h5⟩ := incSkip_ok (ex := ex) S.endVertex (v + 1) (by omega) hE
      have e : S.nextV v = .ok w := by unfold SubGraph.nextV; rw [hex]; exact h1
      have ih := walkV_ok S hex hE fuel w h3 (by omega) h5
      rw [e]
      dsimp only
      rw [ih]
      have hx' : ex.getD v false = false := by
        rcases hx with h' | h'
        · exact absurd h' h
        · exact h'
      have e2 : S.endVertex - v = (S.endVertex - (v + 1)) + 1 := by omega
      rw [e2, List.range'_succ, List.filter_cons_of_pos (by simp only [decide_eq_true_eq]; exact hx'),
        filter_skip S.endVertex (v + 1) w h2 h3 h4]
      rfl

theorem foldl_max_spec : ∀ (l : List Nat) (m : Nat), m ≤ l.foldl (fun m v => max v m) m ∧
    (∀ v ∈ l, v ≤ l.foldl (fun m v => max v m) m) ∧ ∀ n, m < n → (∀ v ∈ l, v < n) → l.foldl (fun m v => max v m) m < n
  | [], m => by simp
  | a :: l, m => by
    obtain ⟨h1, h2, h3⟩ := foldl_max_spec l (max a m)
    refine ⟨?_, ?_, ?_⟩
    · rw [List.foldl_cons]; omega
    · intro v hv
      rw [List.foldl_cons]
      rcases List.mem_cons.mp hv with rfl | hv
      · omega
      · exact h2 v hv
    · intro n hm hl
      rw [List.foldl_cons]
      refine h3 n ?_ fun v hv => hl v (by simp [hv])
      have := hl a (by simp)
      omega

theorem mem_included (n v : Nat) : v ∈ included n ex ↔ v < n ∧ ex.getD v false = false := by
  unfold included
  rw [List.mem_filter, List.mem_range, decide_eq_true_eq]

theorem vertices_ok (S : SubGraph) (hex : S.excluded = ex) (n : Nat) (hn : 0 < n) (hl : ex.length = n)
    (hE : S.endVertex = (included n ex).foldl (fun m v => max v m) 0 + 1) (fuel : Nat) (hf : n < fuel) :
    S.vertices fuel = some (.ok (included n ex)) := by
  obtain ⟨h1, h2, h3⟩ := foldl_max_spec (included n ex) 0
  have hEn : S.endVertex ≤ n := by
    have := h3 n hn fun v hv => ((mem_included n v).mp hv).1
    omega
  unfold SubGraph.vertices SubGraph.beginV
  rw [hex, ctorSkip_eq]
  obtain ⟨w, g1, g2, g3, g4, g5⟩ := incSkip_ok (ex := ex) S.endVertex 0 (by omega) (by omega)
  rw [g1]
  dsimp only
  rw [walkV_ok S hex (by omega) fuel w g3 (by omega) g5, ← filter_skip S.endVertex 0 w g2 g3 g4]
  congr 2
  have e : List.range n = List.range' 0 (S.endVertex - 0) ++ List.range' S.endVertex (n - S.endVertex) := by
    have h1 : n = (S.endVertex - 0) + (n - S.endVertex) := by omega
    conv_lhs => rw [List.range_eq_range', h1, ← List.range'_append_1]
    congr 2
    omega
  unfold included
  rw [e, List.filter_append]
  have : (List.range' S.endVertex (n - S.endVertex)).filter (fun v => ex.getD v false = false) = [] := by
    rw [List.filter_eq_nil_iff]
    intro v hv
    rw [List.mem_range'_1] at hv
    simp only [decide_eq_true_eq]
    intro hc
    have := h2 v ((mem_included n v).mpr ⟨by omega, hc⟩)
    omega
  rw [this, List.append_nil]

/-- The indices of the edges of the first `k` vertices run from 0 without gap. -/
theorem indices_ok (k : Nat) : ((List.range k).flatMap fun v => ((subTargets G ex v).zipIdx (subCat G ex v).length).map Prod.snd) =
    List.range (subCat G ex k).length := by
  induction k with
  | zero => rfl
  | succ k ih =>
    rw [List.range_succ, List.flatMap_append, ih]
    simp only [List.flatMap_cons, List.flatMap_nil, List.append_nil, List.zipIdx_map_snd, subCat, List.length_append]
    rw [List.range_eq_range', List.range_eq_range', ← List.range'_append_1]
    simp

end Amg
end Istl
