import Verif.Props.C41

/-!
# C42: aggregates respect the size bounds

What the coarsening guarantees: an aggregate has at most `max 1 maxAggregateSize` vertices that it was grown with. Single vertices
left over at the end of their own growth are merged into the aggregate of a strongly connected neighbour without looking at its
size, so the final aggregate may be larger (`C42_merge_counterexample`); a vertex is merged only if no neighbour that depends on it
was still free.
-/

open Finset

namespace Istl
namespace Amg

/-- What holds of a map and the set `M` of merged vertices. -/
structure Sized (G : Graph) (P : Props) (c : Crit) (i k : Nat) (agg : Nat → Agg) (M : Finset Nat) : Prop where
  ids : ∀ v x, agg v = .id x → x < k ∧ ∃ f, f < i ∧ agg f = .id x
  size : ∀ x, ((range G.n).filter fun v => agg v = .id x ∧ v ∉ M).card ≤ max 1 c.maxSize
  lt : ∀ v ∈ M, v < i ∧ agg v ≠ .unagg
  why : ∀ v ∈ M, 1 < c.maxSize ∧ P.excluded v = false ∧ P.isolated v = false ∧
    (∃ t ∈ G.adj v, P.isolated t = false ∧ (P.dep v t = true ∨ P.infl v t = true) ∧ agg t = agg v)
  alone : ∀ v ∈ M, 2 ≤ c.minSize → 1 ≤ c.maxDistance → ∀ u ∈ G.adj v, u ≠ v →
    P.isolated u = true ∨ P.dep u v = false ∨ agg u = .iso ∨ ∃ f, f < v ∧ agg f = agg u ∧ agg u ≠ .unagg
  low : ∀ v, v < i → agg v ≠ .unagg

theorem Sized.keep {G : Graph} {P : Props} {c : Crit} {i k k' : Nat} {agg agg' : Nat → Agg} {M : Finset Nat} (h : Sized G P c i k agg M)
    (hk : ∀ v, agg v ≠ .unagg → agg' v = agg v)
    (hids : ∀ v x, agg' v = .id x → x < k' ∧ ∃ f, f < i + 1 ∧ agg' f = .id x)
    (hsize : ∀ x, ((range G.n).filter fun v => agg' v = .id x ∧ v ∉ M).card ≤ max 1 c.maxSize)
    (hi : agg' i ≠ .unagg) : Sized G P c (i + 1) k' agg' M := by
  have hlow : ∀ v, v < i → agg' v = agg v := fun v hv => hk v (h.low v hv)
  refine ⟨hids, hsize, ?_, ?_, ?_, ?_⟩
  · intro v hv
    obtain ⟨h1, h2⟩ := h.lt v hv
    exact ⟨by omega, by rw [hk v h2]; exact h2⟩
  · intro v hv
    obtain ⟨h0, h0', h1, t, h2, h3, h4, h5⟩ := h.why v hv
    have hv2 := (h.lt v hv).2
    exact ⟨h0, h0', h1, t, h2, h3, h4, by rw [hk v hv2, hk t (by rw [h5]; exact hv2), h5]⟩
  · intro v hv h2 hd u hu huv
    rcases h.alone v hv h2 hd u hu huv with q | q | q | ⟨f, q1, q2, q3⟩
    · exact Or.inl q
    · exact Or.inr (Or.inl q)
    · exact Or.inr (Or.inr (Or.inl (by rw [hk u (by rw [q]; simp)]; exact q)))
    · refine Or.inr (Or.inr (Or.inr ⟨f, q1, ?_, by rw [hk u q3]; exact q3⟩))
      rw [hk u q3, hk f (by rw [q2]; exact q3), q2]
  · intro v hv
    by_cases hvi : v = i
    · rw [hvi]; exact hi
    · rw [hlow v (by omega)]; exact h.low v (by omega)

theorem coarsened_sized (G : Graph) (P : Props) (c : Crit) {i k : Nat} {agg : Nat → Agg} (h : Coarsened G P c i k agg) :
    ∃ M, Sized G P c i k agg M := by
  induction h with
  | start => exact ⟨∅, by simp, by simp, by simp, by simp, by simp, by simp⟩
  | @done i k agg h hi ih =>
    obtain ⟨M, hM⟩ := ih
    refine ⟨M, hM.keep (fun _ _ => rfl) ?_ hM.size hi⟩
    intro v x hv
    obtain ⟨h1, f, h2, h3⟩ := hM.ids v x hv
    exact ⟨h1, f, by omega, h3⟩
  | @skip i k agg h hi hs ih =>
    obtain ⟨M, hM⟩ := ih
    have hne : ∀ v x, upd agg i .iso v = .id x → v ≠ i ∧ agg v = .id x := by
      intro v x hv
      by_cases hvi : v = i
      · subst hvi; rw [upd_same] at hv; cases hv
      · rw [upd_ne _ _ hvi] at hv; exact ⟨hvi, hv⟩
    refine ⟨M, hM.keep ?_ ?_ ?_ (by rw [upd_same]; simp)⟩
    · intro v hv
      rw [upd_ne _ _ (by rintro rfl; exact hv hi)]
    · intro v x hv
      obtain ⟨h1, f, h2, h3⟩ := hM.ids v x (hne v x hv).2
      exact ⟨h1, f, by omega, by rw [upd_ne _ _ (by omega)]; exact h3⟩
    · intro x
      refine le_trans (Finset.card_le_card ?_) (hM.size x)
      intro v hv
      simp only [Finset.mem_filter] at hv ⊢
      exact ⟨hv.1, (hne v x hv.2.1).2, hv.2.2⟩
  | @grown i k agg h hi hex hsk core hnd hlen hic hun hlt hreach hni agg' hagg ih =>
    obtain ⟨M, hM⟩ := ih
    refine ⟨M, hM.keep ?_ ?_ ?_ ?_⟩
    · intro v hv
      rw [hagg, if_neg (fun hc => hv (hun v hc))]
    · intro v x hv
      rw [hagg] at hv
      by_cases hvc : v ∈ core
      · rw [if_pos hvc] at hv
        cases hv
        exact ⟨by omega, i, by omega, by rw [hagg, if_pos hic]⟩
      · rw [if_neg hvc] at hv
        obtain ⟨h1, f, h2, h3⟩ := hM.ids v x hv
        exact ⟨by omega, f, by omega, by rw [hagg, if_neg (fun hc => by rw [hun f hc] at h3; cases h3)]; exact h3⟩
    · intro x
      by_cases hx : x = k
      · subst hx
        refine le_trans (le_trans (Finset.card_le_card (t := core.toFinset) ?_) core.toFinset_card_le) hlen
        intro v hv
        simp only [Finset.mem_filter] at hv
        rw [List.mem_toFinset]
        by_contra hc
        have h2 := hv.2.1
        rw [hagg, if_neg hc] at h2
        have := (hM.ids v x h2).1
        omega
      · refine le_trans (Finset.card_le_card ?_) (hM.size x)
        intro v hv
        simp only [Finset.mem_filter] at hv ⊢
        refine ⟨hv.1, ?_, hv.2.2⟩
        have h2 := hv.2.1
        rw [hagg] at h2
        split at h2
        · cases h2; exact absurd rfl hx
        · exact h2
    · rw [hagg, if_pos hic]; simp
  | @merged i k agg h hi hex hni hms t ht hat hti hdi hfree ih =>
    obtain ⟨M, hM⟩ := ih
    have hkeep : ∀ v, agg v ≠ .unagg → upd agg i (agg t) v = agg v := by
      intro v hv
      rw [upd_ne _ _ (by rintro rfl; exact hv hi)]
    have hsplit : ∀ v x, upd agg i (agg t) v = .id x → (v = i ∧ agg t = .id x) ∨ (v ≠ i ∧ agg v = .id x) := by
      intro v x hv
      by_cases hvi : v = i
      · subst hvi; rw [upd_same] at hv; exact Or.inl ⟨rfl, hv⟩
      · rw [upd_ne _ _ hvi] at hv; exact Or.inr ⟨hvi, hv⟩
    have hiM : i ∉ M := fun hc => by have := (hM.lt i hc).1; omega
    refine ⟨insert i M, ?_, ?_, ?_, ?_, ?_, ?_⟩
    · intro v x hv
      have : ∃ w, agg w = .id x := by
        rcases hsplit v x hv with h | h
        · exact ⟨t, h.2⟩
        · exact ⟨v, h.2⟩
      obtain ⟨w, hw⟩ := this
      obtain ⟨h1, f, h2, h3⟩ := hM.ids w x hw
      exact ⟨h1, f, by omega, by rw [upd_ne _ _ (by omega)]; exact h3⟩
    · intro x
      refine le_trans (Finset.card_le_card ?_) (hM.size x)
      intro v hv
      simp only [Finset.mem_filter, Finset.mem_insert, not_or] at hv ⊢
      refine ⟨hv.1, ?_, hv.2.2.2⟩
      have h2 := hv.2.1
      rw [upd_ne _ _ hv.2.2.1] at h2
      exact h2
    · intro v hv
      rcases Finset.mem_insert.mp hv with rfl | hv
      · exact ⟨by omega, by rw [upd_same]; exact hat⟩
      · obtain ⟨h1, h2⟩ := hM.lt v hv
        exact ⟨by omega, by rw [hkeep v h2]; exact h2⟩
    · intro v hv
      rcases Finset.mem_insert.mp hv with rfl | hv
      · exact ⟨hms, hex, hni, t, ht, hti, hdi, by rw [upd_same, hkeep t hat]⟩
      · obtain ⟨h0, h0', h1, t', h2, h3, h4, h5⟩ := hM.why v hv
        have hv2 := (hM.lt v hv).2
        exact ⟨h0, h0', h1, t', h2, h3, h4, by rw [hkeep v hv2, hkeep t' (by rw [h5]; exact hv2), h5]⟩
    · intro v hv h2 hd u hu huv
      rcases Finset.mem_insert.mp hv with rfl | hv
      · by_cases hua : agg u = .unagg
        · rcases hfree h2 hd u hu huv hua with q | q
          · exact Or.inl q
          · exact Or.inr (Or.inl q)
        · cases hau : agg u with
          | unagg => exact absurd hau hua
          | iso => exact Or.inr (Or.inr (Or.inl (by rw [hkeep u hua]; exact hau)))
          | id x =>
            obtain ⟨_, f, h2, h3⟩ := hM.ids u x hau
            refine Or.inr (Or.inr (Or.inr ⟨f, h2, ?_, by rw [hkeep u hua]; exact hua⟩))
            rw [hkeep u hua, upd_ne _ _ (by omega), h3, hau]
      · rcases hM.alone v hv h2 hd u hu huv with q | q | q | ⟨f, q1, q2, q3⟩
        · exact Or.inl q
        · exact Or.inr (Or.inl q)
        · exact Or.inr (Or.inr (Or.inl (by rw [hkeep u (by rw [q]; simp)]; exact q)))
        · refine Or.inr (Or.inr (Or.inr ⟨f, q1, ?_, by rw [hkeep u q3]; exact q3⟩))
          rw [hkeep u q3, hkeep f (by rw [q2]; exact q3), q2]
    · intro v hv
      by_cases hvi : v = i
      · rw [hvi, upd_same]; exact hat
      · rw [upd_ne _ _ hvi]; exact hM.low v (by omega)

/-- C42. There is a set of merged vertices without which every aggregate has at most `max 1 maxAggregateSize` vertices. A merged
vertex is neither isolated nor excluded and has a strong connection to a non-isolated neighbour in its aggregate; with a minimal size
of at least 2, every neighbour that depends on it (and is not isolated) was taken before its turn: it is marked isolated or is in an
aggregate whose first vertex is smaller. -/
theorem C42_size (G : Graph) (hG : G.WF) (hsym : ∀ u t, u < G.n → t ∈ G.adj u → u ∈ G.adj t)
    (hloop : ∀ u, u < G.n → u ∉ G.adj u) (P : Props) (c : Crit) (hc : c.minSize ≤ c.maxSize) (fuel : Nat) (hf : G.n + 1 ≤ fuel) :
    ∃ b, ∃ M : Finset Nat, buildAggregates G P c fuel = some (.ok b) ∧
      (∀ x, ((range G.n).filter fun v => b.st.agg v = .id x ∧ v ∉ M).card ≤ max 1 c.maxSize) ∧
      (∀ v ∈ M, 1 < c.maxSize ∧ P.excluded v = false ∧ P.isolated v = false ∧
        (∃ t ∈ G.adj v, P.isolated t = false ∧ (P.dep v t = true ∨ P.infl v t = true) ∧ b.st.agg t = b.st.agg v)) ∧
      (∀ v ∈ M, 2 ≤ c.minSize → 1 ≤ c.maxDistance → ∀ u ∈ G.adj v,
        P.isolated u = true ∨ P.dep u v = false ∨ b.st.agg u = .iso ∨ ∃ f, f < v ∧ b.st.agg f = b.st.agg u) := by
  obtain ⟨b, e, _, _, _, _, hh⟩ := C41_connected G hG hsym hloop P c hc fuel hf
  obtain ⟨M, hM⟩ := coarsened_sized G P c hh
  refine ⟨b, M, e, hM.size, hM.why, ?_⟩
  intro v hv h2 hd u hu
  have huv : u ≠ v := fun hcon => hloop v (hM.lt v hv).1 (hcon ▸ hu)
  rcases hM.alone v hv h2 hd u hu huv with q | q | q | ⟨f, q1, q2, _⟩
  · exact Or.inl q
  · exact Or.inr (Or.inl q)
  · exact Or.inr (Or.inr (Or.inl q))
  · exact Or.inr (Or.inr (Or.inr ⟨f, q1, q2⟩))

/-- C42. With `maxAggregateSize = 1` (or 0) every aggregate is a single vertex. -/
theorem C42_size_one (G : Graph) (hG : G.WF) (hsym : ∀ u t, u < G.n → t ∈ G.adj u → u ∈ G.adj t)
    (hloop : ∀ u, u < G.n → u ∉ G.adj u) (P : Props) (c : Crit) (hc : c.minSize ≤ c.maxSize) (h1 : c.maxSize ≤ 1)
    (fuel : Nat) (hf : G.n + 1 ≤ fuel) :
    ∃ b, buildAggregates G P c fuel = some (.ok b) ∧ ∀ x, ((range G.n).filter fun v => b.st.agg v = .id x).card ≤ 1 := by
  obtain ⟨b, M, e, hs, hw, _⟩ := C42_size G hG hsym hloop P c hc fuel hf
  refine ⟨b, e, fun x => ?_⟩
  have hM : ∀ v, v ∉ M := fun v hv => by have := (hw v hv).1; omega
  have := hs x
  simp only [hM, not_false_eq_true, and_true] at this
  omega

/-- Growth with `maxAggregateSize = 3` on the path 0-1-2-3-4; no vertex is left over. -/
example : ((buildAggregates demoPath demoProps ⟨2, 3, 2, 15, true⟩ 6).map fun r => r >>= fun b =>
    Res.ok ((List.range 5).map b.st.agg)) = some (.ok [.id 0, .id 0, .id 1, .id 1, .id 1]) := by decide +kernel

/-- The bound does not hold for the final aggregates: on the path 0-1-2 with both sizes 2, vertex 2 is left alone and is merged into
the aggregate of 0 and 1, which then has 3 vertices. -/
theorem C42_merge_counterexample :
    ((buildAggregates ⟨3, fun u => match u with | 0 => [1] | 1 => [0, 2] | 2 => [1] | _ => []⟩ demoProps ⟨2, 2, 2, 15, true⟩ 4).map
      fun r => r >>= fun b => Res.ok ((range 3).filter fun v => b.st.agg v = .id 0).card) = some (.ok 3) := by
  decide +kernel

/-- Recording an aggregate among the connected ones. -/
theorem mem_connInsert (x y : Agg) (l : List Agg) : y ∈ connInsert x l ↔ y = x ∨ y ∈ l := by
  unfold connInsert
  split
  · rename_i h
    constructor
    · exact Or.inr
    · rintro (rfl | h') <;> assumption
  · simp

theorem nodup_connInsert (x : Agg) {l : List Agg} (h : l.Nodup) : (connInsert x l).Nodup := by
  unfold connInsert
  split
  · exact h
  · rename_i hx; exact List.nodup_cons.mpr ⟨hx, h⟩

theorem absorb_conn (ts : List Nat) : ∀ (st : AgSt), (ts.foldl addEdge st).agg = st.agg ∧
    (st.conn.Nodup → (ts.foldl addEdge st).conn.Nodup) ∧
    ∀ x, x ∈ (ts.foldl addEdge st).conn ↔ x ∈ st.conn ∨ ∃ t ∈ ts, x = st.agg t := by
  induction ts with
  | nil => intro st; exact ⟨rfl, id, fun x => by simp⟩
  | cons t ts ih =>
    intro st
    have h1 : (addEdge st t).agg = st.agg := by unfold addEdge; split <;> rfl
    have h2 : (addEdge st t).conn = connInsert (st.agg t) st.conn := by unfold addEdge; split <;> rfl
    obtain ⟨i1, i2, i3⟩ := ih (addEdge st t)
    rw [List.foldl_cons]
    refine ⟨i1.trans h1, fun h => i2 (by rw [h2]; exact nodup_connInsert _ h), fun x => ?_⟩
    rw [i3, h2, mem_connInsert, h1]
    simp only [List.mem_cons, exists_eq_or_imp]
    tauto

/-- C42. `connectedSize()` counts the distinct aggregates (or "unaggregated") met so far: adding a vertex records exactly the
aggregates of its neighbours, and a new aggregate starts with the entry made by `seed`. Growth stops as soon as that number reaches
`maxConnectivity` (only in `growIsolatedAggregate`: the code does not look at it for other aggregates). -/
theorem C42_connectivity (G : Graph) (c : Crit) (v : Nat) (st : AgSt) :
    (∀ st', add1 G v st = .ok st' → st.conn.Nodup → st'.conn.Nodup ∧
      ∀ x, x ∈ st'.conn ↔ x ∈ st.conn ∨ ∃ t ∈ G.adj v, x = st'.agg t) ∧
    (∀ st', seed G v st = .ok st' → st'.conn.Nodup ∧ ∀ x, x ∈ st'.conn ↔ x = .id v ∨ ∃ t ∈ G.adj v, x = st'.agg t) ∧
    (c.maxConn ≤ st.conn.length → ∀ ca fuel, growIso G c ca (fuel + 1) st = some (.ok st)) := by
  have hadd : ∀ (st st' : AgSt), add1 G v st = .ok st' → (st.conn.Nodup → st'.conn.Nodup) ∧
      ∀ x, x ∈ st'.conn ↔ x ∈ st.conn ∨ ∃ t ∈ G.adj v, x = st'.agg t := by
    intro st st' h
    have h0 : ∃ f, st' = { absorb G v { st with verts := MatMat.setInsert v st.verts, agg := upd st.agg v st.cur, front := f } with
        front := sortFront (absorb G v { st with verts := MatMat.setInsert v st.verts, agg := upd st.agg v st.cur, front := f }).front } := by
      unfold add1 at h
      dsimp only at h
      split at h
      · obtain ⟨f, _, h2⟩ := Res.bind_eq_ok.mp h
        cases h2
        exact ⟨f, rfl⟩
      · cases h
        exact ⟨st.front, rfl⟩
    obtain ⟨f, rfl⟩ := h0
    obtain ⟨i1, i2, i3⟩ := absorb_conn (G.adj v)
      { st with verts := MatMat.setInsert v st.verts, agg := upd st.agg v st.cur, front := f }
    refine ⟨i2, fun x => ?_⟩
    change x ∈ (absorb G v _).conn ↔ _ ∨ ∃ t ∈ G.adj v, x = (absorb G v _).agg t
    unfold absorb
    rw [i3, i1]
  refine ⟨fun st' h hn => ⟨(hadd _ _ h).1 hn, (hadd _ _ h).2⟩, fun st' h => ?_, fun h ca fuel => ?_⟩
  · obtain ⟨h1, h2⟩ := hadd _ _ h
    refine ⟨h1 (by simp [connInsert]), fun x => ?_⟩
    rw [h2, mem_connInsert]
    simp
  · rw [growIso, if_neg (by omega)]

end Amg
end Istl
