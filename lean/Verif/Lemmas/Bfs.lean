import Verif.Spec.Aggregates
import Verif.Lemmas.Vec
import Mathlib.Data.List.Nodup
import Mathlib.Data.Finset.Card
import Mathlib.Logic.Relation

/-! Breadth first search. -/

namespace Istl
namespace Amg

variable {σ : Type}

/-- an edge to an unmarked vertex of the aggregate -/
def BStep (G : Graph) (a : Agg) (A0 : Nat → Agg) (m0 : Nat → Bool) (u t : Nat) : Prop :=
  t ∈ G.adj u ∧ A0 t = a ∧ m0 t = false

/-- the edges of the vertices of a list -/
def edgeList (G : Graph) (l : List Nat) : List (Nat × Nat) := l.flatMap fun u => (G.adj u).map fun t => (u, t)

structure BInv (G : Graph) (V : Visitor σ) (a : Agg) (start : Nat) (m0 : Nat → Bool) (A0 : Nat → Agg)
    (J : List Nat → List (Nat × Nat) → σ → Prop) (E : List (Nat × Nat)) (s : BfsSt σ) : Prop where
  nodup : s.visited.Nodup
  marks : ∀ t, s.mark t = true ↔ (m0 t = true ∨ t ∈ s.visited)
  mem : ∀ t ∈ s.visited, Relation.ReflTransGen (BStep G a A0 m0) start t
  agg : ∀ t, t ∉ s.visited → V.agg s.data t = A0 t
  closed : ∀ e ∈ E, A0 e.2 = a → m0 e.2 = false → e.2 ∈ s.visited
  user : J s.visited E s.data

/-- the obligations on the visitors -/
structure BOb (G : Graph) (V : Visitor σ) (a : Agg) (m0 : Nat → Bool) (A0 : Nat → Agg)
    (J : List Nat → List (Nat × Nat) → σ → Prop) : Prop where
  agg_inner : ∀ d u t w, w ≠ t → V.agg (V.inner d u t) w = V.agg d w
  agg_outer : ∀ d u t w, V.agg (V.outer d u t) w = V.agg d w
  inner : ∀ vis E d u t, J vis E d → u ∈ vis → t ∈ G.adj u → t ∉ vis → m0 t = false → A0 t = a →
    J (vis ++ [t]) (E ++ [(u, t)]) (V.inner d u t)
  skip : ∀ vis E d u t, J vis E d → u ∈ vis → t ∈ G.adj u → (t ∈ vis ∨ m0 t = true) → V.agg d t = a → J vis (E ++ [(u, t)]) d
  outer : ∀ vis E d u t, J vis E d → u ∈ vis → t ∈ G.adj u → V.agg d t ≠ a → J vis (E ++ [(u, t)]) (V.outer d u t)

variable {G : Graph} {V : Visitor σ} {a : Agg} {start : Nat} {m0 : Nat → Bool} {A0 : Nat → Agg}
  {J : List Nat → List (Nat × Nat) → σ → Prop}

theorem BInv.edge (ob : BOb G V a m0 A0 J) {E : List (Nat × Nat)} {s : BfsSt σ}
    (h : BInv G V a start m0 A0 J E s) {u t : Nat} (hu : u ∈ s.visited) (ht : t ∈ G.adj u) :
    BInv G V a start m0 A0 J (E ++ [(u, t)]) (bfsEdge V a u s t) ∧ ∃ new, (bfsEdge V a u s t).visited = s.visited ++ new := by
  unfold bfsEdge
  by_cases hag : V.agg s.data t = a
  · rw [if_pos hag]
    by_cases hm : s.mark t = true
    · rw [if_pos hm]
      refine ⟨⟨h.nodup, h.marks, h.mem, h.agg, ?_, ob.skip _ _ _ _ _ h.user hu ht (Or.symm ((h.marks t).mp hm)) hag⟩, [], by simp⟩
      intro e he h1 h2
      rcases List.mem_append.mp he with he | he
      · exact h.closed e he h1 h2
      · simp only [List.mem_singleton] at he
        subst he
        rcases (h.marks t).mp hm with hc | hc
        · simp [hc] at h2
        · exact hc
    · rw [if_neg hm]
      have hnm : ¬ (m0 t = true ∨ t ∈ s.visited) := fun hc => hm ((h.marks t).mpr hc)
      push Not at hnm
      have hm0 : m0 t = false := by simpa using hnm.1
      have hA : A0 t = a := by rw [← h.agg t hnm.2]; exact hag
      refine ⟨⟨?_, ?_, ?_, ?_, ?_, ob.inner _ _ _ _ _ h.user hu ht hnm.2 hm0 hA⟩, [t], rfl⟩
      · dsimp only
        rw [List.nodup_append]
        refine ⟨h.nodup, by simp, ?_⟩
        intro x hx y hy hxy
        simp only [List.mem_singleton] at hy
        subst hy; subst hxy
        exact hnm.2 hx
      · intro w
        dsimp only
        by_cases hw : w = t
        · subst hw; simp
        · rw [upd_ne _ _ hw, h.marks w]
          simp [hw]
      · intro w hw
        dsimp only at hw
        rcases List.mem_append.mp hw with hw | hw
        · exact h.mem w hw
        · simp only [List.mem_singleton] at hw
          subst hw
          exact (h.mem u hu).tail ⟨ht, hA, hm0⟩
      · intro w hw
        dsimp only at hw ⊢
        simp only [List.mem_append, List.mem_singleton, not_or] at hw
        rw [ob.agg_inner _ _ _ _ hw.2, h.agg w hw.1]
      · intro e he h1 h2
        rcases List.mem_append.mp he with he | he
        · exact List.mem_append_left _ (h.closed e he h1 h2)
        · simp only [List.mem_singleton] at he
          subst he
          simp
  · rw [if_neg hag]
    refine ⟨⟨h.nodup, h.marks, h.mem, ?_, ?_, ob.outer _ _ _ _ _ h.user hu ht hag⟩, [], by simp⟩
    · intro w hw
      dsimp only at hw ⊢
      rw [ob.agg_outer, h.agg w hw]
    · intro e he h1 h2
      rcases List.mem_append.mp he with he | he
      · exact h.closed e he h1 h2
      · simp only [List.mem_singleton] at he
        subst he
        by_contra hc
        exact hag ((h.agg t hc).trans h1)

theorem BInv.edges (ob : BOb G V a m0 A0 J) {u : Nat} : ∀ (ts : List Nat) {E : List (Nat × Nat)} {s : BfsSt σ},
    BInv G V a start m0 A0 J E s → u ∈ s.visited → (∀ t ∈ ts, t ∈ G.adj u) →
    BInv G V a start m0 A0 J (E ++ ts.map fun t => (u, t)) (ts.foldl (bfsEdge V a u) s) ∧
      ∃ new, (ts.foldl (bfsEdge V a u) s).visited = s.visited ++ new
  | [], E, s, h, _, _ => ⟨by simpa using h, [], by simp⟩
  | t :: ts, E, s, h, hu, hts => by
    obtain ⟨h1, new, e⟩ := h.edge ob hu (hts t (by simp))
    obtain ⟨h2, new', e'⟩ := BInv.edges ob ts h1 (by rw [e]; exact List.mem_append_left _ hu) (fun w hw => hts w (by simp [hw]))
    refine ⟨?_, new ++ new', ?_⟩
    · simp only [List.foldl_cons, List.map_cons]
      rw [List.append_cons]
      exact h2
    · simp only [List.foldl_cons]
      rw [e', e, List.append_assoc]

theorem BInv.sphere (ob : BOb G V a m0 A0 J) : ∀ (us : List Nat) {E : List (Nat × Nat)} {s : BfsSt σ},
    BInv G V a start m0 A0 J E s → (∀ u ∈ us, u ∈ s.visited) →
    BInv G V a start m0 A0 J (E ++ edgeList G us) (us.foldl (bfsVertex G V a) s) ∧
      ∃ new, (us.foldl (bfsVertex G V a) s).visited = s.visited ++ new
  | [], E, s, h, _ => ⟨by simpa [edgeList] using h, [], by simp⟩
  | u :: us, E, s, h, hu => by
    obtain ⟨h1, new, e⟩ := h.edges ob (u := u) (G.adj u) (hu u (by simp)) (fun _ ht => ht)
    obtain ⟨h2, new', e'⟩ := BInv.sphere ob us (s := bfsVertex G V a s u) h1
      (fun w hw => by
        show w ∈ ((G.adj u).foldl (bfsEdge V a u) s).visited
        rw [e]; exact List.mem_append_left _ (hu w (by simp [hw])))
    refine ⟨?_, new ++ new', ?_⟩
    · simp only [List.foldl_cons]
      have : E ++ edgeList G (u :: us) = (E ++ (G.adj u).map fun t => (u, t)) ++ edgeList G us := by
        simp [edgeList]
      rw [this]
      exact h2
    · simp only [List.foldl_cons]
      rw [e']
      show ((G.adj u).foldl (bfsEdge V a u) s).visited ++ new' = _
      rw [e, List.append_assoc]

theorem reach_lt (hG : G.WF) (hs : start < G.n) {t : Nat} (h : Relation.ReflTransGen (BStep G a A0 m0) start t) : t < G.n := by
  induction h with
  | refl => exact hs
  | tail _ h ih => exact hG _ ih _ h.1

theorem nodup_length_le {l : List Nat} {n : Nat} (hn : l.Nodup) (hl : ∀ x ∈ l, x < n) : l.length ≤ n := by
  have : l.toFinset ⊆ Finset.range n := by
    intro x hx
    exact Finset.mem_range.mpr (hl x (List.mem_toFinset.mp hx))
  have := Finset.card_le_card this
  rwa [List.toFinset_card_of_nodup hn, Finset.card_range] at this

/-- the outer loop ends with all vertices processed -/
theorem bfsLoop_spec (hG : G.WF) (hs : start < G.n) (ob : BOb G V a m0 A0 J) : ∀ (fuel : Nat) (s : BfsSt σ) (i sph : Nat),
    BInv G V a start m0 A0 J (edgeList G (s.visited.take i)) s → i ≤ s.visited.length → G.n + 1 ≤ fuel + i →
    ∃ s' sph', bfsLoop G V a fuel s i sph = some (s', sph') ∧ BInv G V a start m0 A0 J (edgeList G s'.visited) s' ∧
      ∃ new, s'.visited = s.visited ++ new
  | 0, s, i, sph, h, hi, hf => by
    have := nodup_length_le h.nodup (fun x hx => reach_lt hG hs (h.mem x hx))
    omega
  | fuel + 1, s, i, sph, h, hi, hf => by
    unfold bfsLoop
    by_cases hii : i = s.visited.length
    · rw [if_pos hii]
      refine ⟨s, sph, rfl, ?_, [], by simp⟩
      rw [hii, List.take_length] at h
      exact h
    · rw [if_neg hii]
      dsimp only
      obtain ⟨h1, new, e⟩ := h.sphere ob (s.visited.drop i) (fun u hu => List.mem_of_mem_drop hu)
      have e' : (bfsSphere G V a s i).visited = s.visited ++ new := e
      have h1' : BInv G V a start m0 A0 J (edgeList G ((bfsSphere G V a s i).visited.take s.visited.length)) (bfsSphere G V a s i) := by
        rw [e', List.take_left]
        have : edgeList G s.visited = edgeList G (s.visited.take i) ++ edgeList G (s.visited.drop i) := by
          unfold edgeList
          rw [← List.flatMap_append, List.take_append_drop]
        rw [this]
        exact h1
      obtain ⟨s', sph', e2, h2, new', e3⟩ := bfsLoop_spec hG hs ob fuel (bfsSphere G V a s i) s.visited.length
        (if (bfsSphere G V a s i).visited.length = s.visited.length then sph else sph + 1) h1' (by rw [e']; simp) (by omega)
      exact ⟨s', sph', e2, h2, new ++ new', by rw [e3, e', List.append_assoc]⟩

/-- The search from an unmarked vertex: it terminates, visits exactly the vertices reachable within the aggregate and calls the
visitors along the edges of these. -/
theorem bfs_spec (hG : G.WF) (hs : start < G.n) (hstart : m0 start = false) (ob : BOb G V a m0 A0 J) (d0 : σ)
    (hA0 : ∀ t, V.agg d0 t = A0 t) (hJ : J [start] [] d0) (fuel : Nat) (hf : G.n + 1 ≤ fuel) :
    ∃ vis d sph mark', bfs G V true false fuel start a ⟨[], m0, d0⟩ = some (⟨[], mark', d⟩, sph) ∧
      (∀ t, mark' t = true ↔ (m0 t = true ∨ t ∈ vis)) ∧
      (∀ t, t ∈ vis ↔ Relation.ReflTransGen (BStep G a A0 m0) start t) ∧ (∀ t ∈ vis, t < G.n) ∧
      J vis (edgeList G vis) d := by
  have h0 : BInv G V a start m0 A0 J (edgeList G (List.take 0 [start])) ⟨[] ++ [start], upd m0 start true, d0⟩ := by
    refine ⟨by simp, ?_, ?_, ?_, ?_, ?_⟩
    · intro t
      dsimp only
      by_cases ht : t = start
      · subst ht; simp
      · rw [upd_ne _ _ ht]; simp [ht]
    · intro t ht
      simp at ht
      subst ht
      exact .refl
    · intro t _; exact hA0 t
    · intro e he; simp [edgeList] at he
    · simpa [edgeList] using hJ
  obtain ⟨s', sph', e, h, new, hnew⟩ := bfsLoop_spec hG hs ob fuel _ 0 0 h0 (by simp) (by omega)
  refine ⟨s'.visited, s'.data, sph', s'.mark, ?_, h.marks, ?_, fun t ht => reach_lt hG hs (h.mem t ht), h.user⟩
  · unfold bfs
    dsimp only
    rw [e]
    simp
  · intro t
    refine ⟨h.mem t, ?_⟩
    intro hr
    induction hr with
    | refl => rw [hnew]; simp
    | tail _ hst ih =>
      rename_i b c _
      refine h.closed (b, c) ?_ hst.2.1 hst.2.2
      unfold edgeList
      rw [List.mem_flatMap]
      exact ⟨b, ih, List.mem_map.mpr ⟨c, hst.1, rfl⟩⟩

end Amg
end Istl
