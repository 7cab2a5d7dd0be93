import Verif.Spec.Bfs
import Verif.Lemmas.Bfs

/-! Breadth first search by distance. -/

namespace Istl
namespace Amg
variable {σ : Type} {G : Graph} {V : Visitor σ} {a : Agg} {A0 : Nat → Agg} {m0 : Nat → Bool} {start : Nat} {d0 : σ}

theorem Walk.distance {k t : Nat} (h : Walk G a A0 m0 start k t) : ∃ j ≤ k, Distance G a A0 m0 start j t := by
  classical
  have hex : ∃ j, Walk G a A0 m0 start j t := ⟨k, h⟩
  exact ⟨Nat.find hex, Nat.find_min' hex h, Nat.find_spec hex, fun j hj => Nat.find_min hex hj⟩

theorem Distance.unique {j k t : Nat} (h : Distance G a A0 m0 start j t) (h' : Distance G a A0 m0 start k t) : j = k := by
  rcases Nat.lt_trichotomy j k with hl | hl | hl
  · exact absurd h.1 (h'.2 j hl)
  · exact hl
  · exact absurd h'.1 (h.2 k hl)

theorem Walk.reach {k : Nat} : ∀ {t : Nat}, Walk G a A0 m0 start k t → Relation.ReflTransGen (BStep G a A0 m0) start t := by
  induction k with
  | zero => rintro t rfl; exact .refl
  | succ k ih => rintro t ⟨u, h1, h2⟩; exact (ih h1).tail h2

theorem Walk.marked {k t : Nat} (hm : m0 start = false) (h : Walk G a A0 m0 start k t) : m0 t = false := by
  cases k with
  | zero => rw [show t = start from h]; exact hm
  | succ k => obtain ⟨u, _, _, _, h⟩ := h; exact h

/-- What holds while the sphere of distance `q` is processed; `old` are the vertices found before. -/
structure SphInv (G : Graph) (V : Visitor σ) (a : Agg) (start : Nat) (m0 : Nat → Bool) (A0 : Nat → Agg) (d0 : σ) (q : Nat) (old : List Nat)
    (E : List (Nat × Nat)) (s : BfsSt σ) : Prop where
  nodup : s.visited.Nodup
  marks : ∀ t, s.mark t = true ↔ (m0 t = true ∨ t ∈ s.visited)
  split : ∃ new, s.visited = old ++ new ∧ ∀ t ∈ new, Distance G a A0 m0 start (q + 1) t
  closed : ∀ e ∈ E, A0 e.2 = a → m0 e.2 = false → e.2 ∈ s.visited
  agg : ∀ t, V.agg s.data t = A0 t
  log : ∃ log, s.data = replay V d0 log ∧ start :: (log.filterMap Event.inner?).map Prod.snd = s.visited ∧
    (∀ e ∈ log.filterMap Event.inner?, ∃ k, Distance G a A0 m0 start k e.1 ∧ Distance G a A0 m0 start (k + 1) e.2 ∧ e.2 ∈ G.adj e.1) ∧
    log.filterMap Event.outer? = E.filter fun e => A0 e.2 ≠ a

theorem SphInv.edge (hp : V.Passive) {q : Nat} {old : List Nat} (hold : ∀ t j, j ≤ q → Distance G a A0 m0 start j t → t ∈ old) {E : List (Nat × Nat)} {s : BfsSt σ}
    (h : SphInv G V a start m0 A0 d0 q old E s) {u t : Nat} (hu : Distance G a A0 m0 start q u) (ht : t ∈ G.adj u) :
    SphInv G V a start m0 A0 d0 q old (E ++ [(u, t)]) (bfsEdge V a u s t) := by
  obtain ⟨new, hnew, hD⟩ := h.split
  obtain ⟨log, l1, l2, l3, l4⟩ := h.log
  unfold bfsEdge
  rw [h.agg t]
  by_cases hag : A0 t = a
  · rw [if_pos hag]
    have hfil : (E ++ [(u, t)]).filter (fun e => A0 e.2 ≠ a) = E.filter fun e => A0 e.2 ≠ a := by
      rw [List.filter_append]; simp [hag]
    by_cases hm : s.mark t = true
    · rw [if_pos hm]
      refine ⟨h.nodup, h.marks, h.split, ?_, h.agg, log, l1, l2, l3, by rw [hfil]; exact l4⟩
      intro e he h1 h2
      rcases List.mem_append.mp he with he | he
      · exact h.closed e he h1 h2
      · simp only [List.mem_singleton] at he
        subst he
        rcases (h.marks t).mp hm with hc | hc
        · simp [hc] at h2
        · exact hc
    · rw [if_neg hm]
      have hnm : ¬ (m0 t = true ∨ t ∈ s.visited) := fun hh => hm ((h.marks t).mpr hh)
      rw [not_or] at hnm
      have hm0 : m0 t = false := by simpa using hnm.1
      have hDt : Distance G a A0 m0 start (q + 1) t := by
        refine ⟨⟨u, hu.1, ht, hag, hm0⟩, ?_⟩
        intro j hj hw
        obtain ⟨j', hj', hd⟩ := hw.distance
        exact hnm.2 (by rw [hnew]; exact List.mem_append_left _ (hold t j' (by omega) hd))
      refine ⟨?_, ?_, ⟨new ++ [t], by simp [hnew], ?_⟩, ?_, fun w => ((hp _ _ _ _).1).trans (h.agg w), log ++ [.inner u t], ?_, ?_, ?_, ?_⟩
      · refine List.nodup_append.2 ⟨h.nodup, by simp, ?_⟩
        rintro x hx y hy rfl
        simp only [List.mem_singleton] at hy
        exact hnm.2 (hy ▸ hx)
      · intro w
        dsimp only
        by_cases hw : w = t
        · subst hw; simp
        · rw [upd_ne _ _ hw, h.marks w]; simp [hw]
      · intro w hw
        rcases List.mem_append.1 hw with hw | hw
        · exact hD w hw
        · rw [List.mem_singleton.1 hw]; exact hDt
      · intro e he h1 h2
        rcases List.mem_append.mp he with he | he
        · exact List.mem_append_left _ (h.closed e he h1 h2)
        · simp only [List.mem_singleton] at he
          subst he
          simp
      · simp [replay, l1]
      · simp [Event.inner?, ← l2]
      · intro e he
        rw [List.filterMap_append, List.mem_append] at he
        rcases he with he | he
        · exact l3 e he
        · simp [Event.inner?] at he
          subst he
          exact ⟨q, hu, hDt, ht⟩
      · rw [List.filterMap_append, l4, hfil]; simp [Event.outer?]
  · rw [if_neg hag]
    refine ⟨h.nodup, h.marks, h.split, ?_, fun w => ((hp _ _ _ _).2).trans (h.agg w), log ++ [.outer u t], ?_, ?_, ?_, ?_⟩
    · intro e he h1 h2
      rcases List.mem_append.mp he with he | he
      · exact h.closed e he h1 h2
      · simp only [List.mem_singleton] at he
        subst he
        exact absurd h1 hag
    · simp [replay, l1]
    · simp [Event.inner?, ← l2]
    · intro e he
      rw [List.filterMap_append, List.mem_append] at he
      rcases he with he | he
      · exact l3 e he
      · simp [Event.inner?] at he
    · rw [List.filterMap_append, List.filter_append, l4]; simp [Event.outer?, hag]

theorem SphInv.edges (hp : V.Passive) {q : Nat} {old : List Nat} (hold : ∀ t j, j ≤ q → Distance G a A0 m0 start j t → t ∈ old) {u : Nat}
    (hu : Distance G a A0 m0 start q u) : ∀ (ts : List Nat) {E : List (Nat × Nat)} {s : BfsSt σ},
    SphInv G V a start m0 A0 d0 q old E s → (∀ t ∈ ts, t ∈ G.adj u) →
    SphInv G V a start m0 A0 d0 q old (E ++ ts.map fun t => (u, t)) (ts.foldl (bfsEdge V a u) s) := by
  intro ts
  induction ts with
  | nil => intro E s h _; simpa using h
  | cons t ts ih =>
    intro E s h hts
    have h1 := h.edge hp hold hu (hts t (by simp))
    have := ih h1 fun t ht => hts t (List.mem_cons_of_mem _ ht)
    simpa [List.append_assoc] using this

theorem SphInv.sphere (hp : V.Passive) {q : Nat} {old : List Nat} (hold : ∀ t j, j ≤ q → Distance G a A0 m0 start j t → t ∈ old) :
    ∀ (us : List Nat) {E : List (Nat × Nat)} {s : BfsSt σ}, SphInv G V a start m0 A0 d0 q old E s → (∀ u ∈ us, Distance G a A0 m0 start q u) →
    SphInv G V a start m0 A0 d0 q old (E ++ edgeList G us) (us.foldl (bfsVertex G V a) s) := by
  intro us
  induction us with
  | nil => intro E s h _; simpa [edgeList] using h
  | cons u us ih =>
    intro E s h hus
    have h1 := h.edges hp hold (hus u (by simp)) (G.adj u) (fun t ht => ht)
    have := ih h1 fun t ht => hus t (List.mem_cons_of_mem _ ht)
    simpa [edgeList, bfsVertex, List.append_assoc] using this

/-- What the whole search gives. -/
structure Searched (G : Graph) (V : Visitor σ) (a : Agg) (start : Nat) (m0 : Nat → Bool) (A0 : Nat → Agg) (d0 : σ) (s : BfsSt σ) (sph : Nat) : Prop where
  nodup : s.visited.Nodup
  marks : ∀ t, s.mark t = true ↔ (m0 t = true ∨ t ∈ s.visited)
  mem : ∀ t, t ∈ s.visited ↔ ∃ k, Walk G a A0 m0 start k t
  sorted : s.visited.Pairwise fun u t => ∃ j k, Distance G a A0 m0 start j u ∧ Distance G a A0 m0 start k t ∧ j ≤ k
  far : ∀ t ∈ s.visited, ∃ k ≤ sph, Distance G a A0 m0 start k t
  sharp : ∃ t ∈ s.visited, Distance G a A0 m0 start sph t
  log : ∃ log, s.data = replay V d0 log ∧ start :: (log.filterMap Event.inner?).map Prod.snd = s.visited ∧
    (∀ e ∈ log.filterMap Event.inner?, ∃ k, Distance G a A0 m0 start k e.1 ∧ Distance G a A0 m0 start (k + 1) e.2 ∧ e.2 ∈ G.adj e.1) ∧
    log.filterMap Event.outer? = (edgeList G s.visited).filter fun e => A0 e.2 ≠ a

/-- The loop invariant of the search: everything nearer than `q` precedes position `i`, everything at distance `q` follows it. -/
structure LevInv (G : Graph) (V : Visitor σ) (a : Agg) (start : Nat) (m0 : Nat → Bool) (A0 : Nat → Agg) (d0 : σ) (q i : Nat) (s : BfsSt σ) (sph : Nat) : Prop where
  nodup : s.visited.Nodup
  marks : ∀ t, s.mark t = true ↔ (m0 t = true ∨ t ∈ s.visited)
  near : ∀ t, t ∈ s.visited.take i ↔ ∃ j < q, Distance G a A0 m0 start j t
  here : ∀ t, t ∈ s.visited.drop i ↔ Distance G a A0 m0 start q t
  sorted : s.visited.Pairwise fun u t => ∃ j k, Distance G a A0 m0 start j u ∧ Distance G a A0 m0 start k t ∧ j ≤ k
  closed : ∀ e ∈ edgeList G (s.visited.take i), A0 e.2 = a → m0 e.2 = false → e.2 ∈ s.visited
  agg : ∀ t, V.agg s.data t = A0 t
  count : if s.visited.drop i = [] then q = sph + 1 ∧ (∃ t ∈ s.visited, Distance G a A0 m0 start sph t) else q = sph
  log : ∃ log, s.data = replay V d0 log ∧ start :: (log.filterMap Event.inner?).map Prod.snd = s.visited ∧
    (∀ e ∈ log.filterMap Event.inner?, ∃ k, Distance G a A0 m0 start k e.1 ∧ Distance G a A0 m0 start (k + 1) e.2 ∧ e.2 ∈ G.adj e.1) ∧
    log.filterMap Event.outer? = (edgeList G (s.visited.take i)).filter fun e => A0 e.2 ≠ a

theorem LevInv.visited {q i : Nat} {s : BfsSt σ} {sph : Nat} (h : LevInv G V a start m0 A0 d0 q i s sph) {t : Nat} (ht : t ∈ s.visited) :
    ∃ j ≤ q, Distance G a A0 m0 start j t := by
  rw [← List.take_append_drop i s.visited, List.mem_append] at ht
  rcases ht with ht | ht
  · obtain ⟨j, h1, h2⟩ := (h.near t).1 ht; exact ⟨j, by omega, h2⟩
  · exact ⟨q, le_refl _, (h.here t).1 ht⟩

theorem LevInv.step (hp : V.Passive) {q i : Nat} {s : BfsSt σ} {sph : Nat} (h : LevInv G V a start m0 A0 d0 q i s sph) (hi : i < s.visited.length) :
    LevInv G V a start m0 A0 d0 (q + 1) s.visited.length (bfsSphere G V a s i)
      (if (bfsSphere G V a s i).visited.length = s.visited.length then sph else sph + 1) ∧
      s.visited.length ≤ (bfsSphere G V a s i).visited.length := by
  have hold : ∀ t j, j ≤ q → Distance G a A0 m0 start j t → t ∈ s.visited := by
    intro t j hj hd
    rw [← List.take_append_drop i s.visited, List.mem_append]
    rcases Nat.lt_or_eq_of_le hj with hj | rfl
    · exact .inl ((h.near t).2 ⟨j, hj, hd⟩)
    · exact .inr ((h.here t).2 hd)
  have h0 : SphInv G V a start m0 A0 d0 q s.visited (edgeList G (s.visited.take i)) s :=
    ⟨h.nodup, h.marks, ⟨[], by simp, by simp⟩, h.closed, h.agg, h.log⟩
  have h1 := h0.sphere hp hold (s.visited.drop i) (fun u hu => (h.here u).1 hu)
  have hE : edgeList G (s.visited.take i) ++ edgeList G (s.visited.drop i) = edgeList G s.visited := by
    unfold edgeList
    rw [← List.flatMap_append, List.take_append_drop]
  rw [hE] at h1
  change SphInv G V a start m0 A0 d0 q s.visited (edgeList G s.visited) (bfsSphere G V a s i) at h1
  generalize bfsSphere G V a s i = s1 at h1 ⊢
  obtain ⟨new, hnew, hD⟩ := h1.split
  have htake : s1.visited.take s.visited.length = s.visited := by rw [hnew]; simp
  have hdrop : s1.visited.drop s.visited.length = new := by rw [hnew]; simp
  have hnd := h1.nodup
  rw [hnew] at hnd
  have hdisj := (List.nodup_append.1 hnd).2.2
  have hne : s.visited.drop i ≠ [] := by
    intro hc
    have := congrArg List.length hc
    simp at this
    omega
  have hq : q = sph := by have := h.count; rwa [if_neg hne] at this
  refine ⟨⟨h1.nodup, h1.marks, ?_, ?_, ?_, by rw [htake]; exact h1.closed, h1.agg, ?_, by rw [htake]; exact h1.log⟩, by rw [hnew]; simp⟩
  · intro t
    rw [htake]
    constructor
    · intro ht
      obtain ⟨j, hj, hd⟩ := h.visited ht
      exact ⟨j, by omega, hd⟩
    · rintro ⟨j, hj, hd⟩
      exact hold t j (by omega) hd
  · intro t
    rw [hdrop]
    refine ⟨hD t, ?_⟩
    intro hd
    obtain ⟨u, hu, ht1, ht2, ht3⟩ := hd.1
    have hdu : Distance G a A0 m0 start q u := by
      refine ⟨hu, fun j hj hw => ?_⟩
      exact hd.2 (j + 1) (by omega) ⟨u, hw, ht1, ht2, ht3⟩
    have hmem := h1.closed (u, t) (List.mem_flatMap.2 ⟨u, hold u q (le_refl _) hdu, List.mem_map.2 ⟨t, ht1, rfl⟩⟩) ht2 ht3
    rw [hnew, List.mem_append] at hmem
    rcases hmem with hmem | hmem
    · obtain ⟨j, hj, hd'⟩ := h.visited hmem
      have := hd.unique hd'
      omega
    · exact hmem
  · rw [hnew]
    refine List.pairwise_append.2 ⟨h.sorted, ?_, ?_⟩
    · refine List.pairwise_of_forall_mem_list ?_
      intro x hx y hy
      exact ⟨q + 1, q + 1, hD x hx, hD y hy, le_refl _⟩
    · intro x hx y hy
      obtain ⟨j, hj, hd'⟩ := h.visited hx
      exact ⟨j, q + 1, hd', hD y hy, by omega⟩
  · rw [hdrop]
    have hlen : s1.visited.length = s.visited.length ↔ new = [] := by
      rw [hnew, List.length_append, ← List.length_eq_zero_iff]; omega
    by_cases hn : new = []
    · rw [if_pos hn, if_pos (hlen.2 hn)]
      obtain ⟨u, hu⟩ := List.exists_mem_of_ne_nil _ hne
      refine ⟨by omega, u, ?_, by rw [← hq]; exact (h.here u).1 hu⟩
      rw [hnew]
      exact List.mem_append_left _ (List.mem_of_mem_drop hu)
    · rw [if_neg hn, if_neg (fun hc => hn (hlen.1 hc))]
      omega

theorem bfsLoop_searched (hG : G.WF) (hs : start < G.n) (hp : V.Passive) : ∀ (fuel : Nat) (s : BfsSt σ) (i sph q : Nat),
    LevInv G V a start m0 A0 d0 q i s sph → i ≤ s.visited.length → G.n + 1 ≤ fuel + i →
    ∃ s' sph', bfsLoop G V a fuel s i sph = some (s', sph') ∧ Searched G V a start m0 A0 d0 s' sph'
  | 0, s, i, sph, q, h, hi, hf => by
    have hlt : ∀ x ∈ s.visited, x < G.n := by
      intro x hx
      obtain ⟨j, -, hd⟩ := h.visited hx
      exact reach_lt hG hs hd.1.reach
    have := nodup_length_le h.nodup hlt
    omega
  | fuel + 1, s, i, sph, q, h, hi, hf => by
    unfold bfsLoop
    by_cases hii : i = s.visited.length
    · rw [if_pos hii]
      have hd : s.visited.drop i = [] := by rw [hii, List.drop_length]
      have ht : s.visited.take i = s.visited := by rw [hii, List.take_length]
      have hc := h.count
      rw [if_pos hd] at hc
      have hmem : ∀ k t, Walk G a A0 m0 start k t → t ∈ s.visited := by
        intro k
        induction k with
        | zero =>
          rintro t rfl
          obtain ⟨log, -, l2, -⟩ := h.log
          rw [← l2]; simp
        | succ k ih =>
          rintro t ⟨u, hu, h1, h2, h3⟩
          refine h.closed (u, t) ?_ h2 h3
          rw [ht]
          exact List.mem_flatMap.2 ⟨u, ih u hu, List.mem_map.2 ⟨t, h1, rfl⟩⟩
      refine ⟨s, sph, rfl, h.nodup, h.marks, ?_, h.sorted, ?_, hc.2, by have := h.log; rwa [ht] at this⟩
      · intro t
        constructor
        · intro hv
          obtain ⟨j, -, hd'⟩ := h.visited hv
          exact ⟨j, hd'.1⟩
        · rintro ⟨k, hk⟩; exact hmem k t hk
      · intro t hv
        rw [← ht] at hv
        obtain ⟨j, hj, hd'⟩ := (h.near t).1 hv
        exact ⟨j, by omega, hd'⟩
    · rw [if_neg hii]
      dsimp only
      obtain ⟨h1, hlen⟩ := h.step hp (by omega)
      obtain ⟨s', sph', e2, h2⟩ := bfsLoop_searched hG hs hp fuel _ _ _ _ h1 hlen (by omega)
      exact ⟨s', sph', e2, h2⟩

/-- The flags of the visited vertices are reset. -/
theorem reset_marks (l : List Nat) : ∀ (m : Nat → Bool) (t : Nat), (l.foldl (fun m v => upd m v false) m) t = if t ∈ l then false else m t := by
  induction l with
  | nil => intro m t; simp
  | cons v l ih =>
    intro m t
    rw [List.foldl_cons, ih]
    by_cases h1 : t ∈ l
    · simp [h1]
    · rw [if_neg h1]
      by_cases h2 : t = v
      · subst h2; simp
      · rw [upd_ne _ _ h2]; simp [h1, h2]

theorem bfs_searched (hG : G.WF) (hs : start < G.n) (hm : m0 start = false) (hp : V.Passive) (hA : ∀ t, V.agg d0 t = A0 t) (fuel : Nat)
    (hf : G.n + 1 ≤ fuel) (remove reset : Bool) :
    ∃ s sph, Searched G V a start m0 A0 d0 s sph ∧
      bfs G V remove reset fuel start a ⟨[], m0, d0⟩ =
        some (⟨if remove then [] else s.visited, if reset then m0 else s.mark, s.data⟩, sph) := by
  have hstart : ∀ t, Distance G a A0 m0 start 0 t ↔ t = start := fun t => ⟨fun h => h.1, fun h => ⟨h, by simp⟩⟩
  have h0 : LevInv G V a start m0 A0 d0 0 0 ⟨[] ++ [start], upd m0 start true, d0⟩ 0 := by
    refine ⟨by simp, ?_, by simp, ?_, by simp, by simp [edgeList], hA, by simp, [], rfl, by simp, by simp, by simp [edgeList]⟩
    · intro t
      dsimp only
      by_cases ht : t = start
      · subst ht; simp
      · rw [upd_ne _ _ ht]; simp [ht]
    · intro t; rw [hstart]; simp
  obtain ⟨s, sph, e, h⟩ := bfsLoop_searched hG hs hp fuel _ 0 0 0 h0 (by simp) (by omega)
  refine ⟨s, sph, h, ?_⟩
  unfold bfs
  dsimp only
  rw [e]
  have hr : (s.visited.foldl (fun m v => upd m v false) s.mark) = m0 := by
    funext t
    rw [reset_marks]
    by_cases ht : t ∈ s.visited
    · rw [if_pos ht]
      obtain ⟨k, hk⟩ := (h.mem t).1 ht
      exact (hk.marked hm).symm
    · rw [if_neg ht]
      have := h.marks t
      cases h1 : s.mark t <;> cases h2 : m0 t <;> simp_all
  cases reset <;> simp [hr]

end Amg
end Istl
