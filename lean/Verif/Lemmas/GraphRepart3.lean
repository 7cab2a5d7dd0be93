import Verif.Lemmas.GraphRepart2

/-! # Lemmas: adjacency arrays -/

namespace Istl
namespace Par
open Amg

theorem displs_snoc : ∀ (ns : List Nat) (k : Nat), displs (ns ++ [k]) = displs ns ++ [ns.sum + k]
  | [], k => by simp [displs]
  | a :: ns, k => by
    rw [List.cons_append, displs, displs_snoc ns k, displs, List.map_append, List.sum_cons]
    simp [Nat.add_assoc]

theorem displs_last (ns : List Nat) : displs ns = (displs ns).dropLast ++ [ns.sum] := by
  rcases List.eq_nil_or_concat ns with rfl | ⟨l, a, rfl⟩
  · rfl
  · rw [List.concat_eq_append, displs_snoc, List.dropLast_concat, List.sum_append]
    simp

theorem displs_length : ∀ ns : List Nat, (displs ns).length = ns.length + 1
  | [] => rfl
  | a :: ns => by rw [displs]; simp [displs_length ns]

theorem set_at_drop {α : Type} (Y x : List α) (v : α) (h : Y.length < x.length) :
    (Y ++ x.drop Y.length).set Y.length v = (Y ++ [v]) ++ x.drop (Y.length + 1) := by
  rw [List.set_append_right (h := le_refl _), Nat.sub_self, List.drop_eq_getElem_cons h, List.set_cons_zero]
  simp

theorem edgeFold {toPar : List (Option Nat)} {f : Nat → Option Nat} {a0 : List (Option Nat)} : ∀ (ts : List Nat) (s : Adj) (E : List (Option Nat)),
    (∀ t ∈ ts, toPar[t]? = some (f t)) → s.i = E.length → s.adjncy = E ++ a0.drop E.length → E.length + ts.length ≤ a0.length →
    ts.foldlM (edgeStep toPar) s = .ok ⟨s.j, s.i + ts.length, s.xadj, (E ++ ts.map f) ++ a0.drop (E ++ ts.map f).length⟩ := by
  intro ts
  induction ts with
  | nil =>
    intro s E _ hi ha _
    rw [List.foldlM_nil]
    cases s
    simp_all [pure, Pure.pure]
  | cons t ts ih =>
    intro s E hf hi ha hl
    rw [List.length_cons] at hl
    rw [List.foldlM_cons]
    unfold edgeStep
    have h1 : rd toPar t = .ok (f t) := rd_ok.2 (hf t (List.mem_cons_self ..))
    have h2 : wr s.adjncy s.i (f t) = .ok ((E ++ [f t]) ++ a0.drop (E ++ [f t]).length) := by
      rw [wr_lt _ (by rw [ha, hi]; simp; omega), ha, hi, set_at_drop _ _ _ (by omega), List.length_append]
      rfl
    rw [h1, Res.ok_bind, h2, Res.ok_bind, Res.ok_bind]
    have := ih ⟨s.j, s.i + 1, s.xadj, (E ++ [f t]) ++ a0.drop (E ++ [f t]).length⟩ (E ++ [f t])
      (fun t' ht' => hf t' (List.mem_cons_of_mem _ ht')) (by simp [hi]) rfl (by simp; omega)
    unfold edgeStep at this
    rw [this]
    simp only [List.append_assoc, List.singleton_append, List.map_cons, List.length_cons]
    congr 2
    omega

/-- The edges of the owned vertices below `k`. -/
def ownEdges (A : PIS) (g : Graph) (f : Nat → Option Nat) (k : Nat) : List (Option Nat) := (ownList A k).flatMap fun v => (g.adj v).map f

def ownDegs (A : PIS) (g : Graph) (k : Nat) : List Nat := (ownList A k).map fun v => (g.adj v).length

theorem ownEdges_length (A : PIS) (g : Graph) (f : Nat → Option Nat) (k : Nat) : (ownEdges A g f k).length = (ownDegs A g k).sum := by
  unfold ownEdges ownDegs
  rw [List.length_flatMap]
  simp

theorem ownEdges_le (A : PIS) (g : Graph) (f : Nat → Option Nat) (k : Nat) :
    (ownEdges A g f k).length ≤ ((List.range k).map fun v => (g.adj v).length).sum := by
  induction k with
  | zero => simp [ownEdges, ownList]
  | succ k ih =>
    rw [List.range_succ, List.map_append, List.sum_append]
    unfold ownEdges at ih ⊢
    rw [ownList_succ]
    split
    · rw [List.flatMap_append, List.length_append]
      simpa using ih
    · simp only [List.map_cons, List.map_nil, List.sum_cons, List.sum_nil]
      omega

theorem range_sum_mono (d : Nat → Nat) {k m : Nat} (h : k ≤ m) : ((List.range k).map d).sum ≤ ((List.range m).map d).sum := by
  rw [map_sum, map_sum]
  exact Finset.sum_le_sum_of_subset (Finset.range_subset_range.2 h)

theorem adjLoop {A : PIS} (hA : PisOk A) {g : Graph} (hg : g.WF) (hc : ∀ i, i < g.n → ∃ e ∈ A, e.loc = i)
    {toPar : List (Option Nat)} {f : Nat → Option Nat} (hf : ∀ t, t < g.n → toPar[t]? = some (f t))
    {x0 : List Nat} {a0 : List (Option Nat)} (hx : x0.length = (ownList A g.n).length + 1)
    (ha : a0.length = ((List.range g.n).map fun v => (g.adj v).length).sum) :
    ∀ k, k ≤ g.n → (List.range k).foldlM (adjStep A g toPar) ⟨0, 0, x0, a0⟩ =
      Res.ok ⟨(ownList A k).length, (ownEdges A g f k).length, (displs (ownDegs A g k)).dropLast ++ x0.drop (ownList A k).length,
        ownEdges A g f k ++ a0.drop (ownEdges A g f k).length⟩ := by
  intro k
  induction k with
  | zero => intro _; simp [ownList, ownEdges, ownDegs, displs, pure, Pure.pure]
  | succ k ih =>
    intro hk
    rw [List.range_succ, List.foldlM_append, ih (by omega), Res.ok_bind, List.foldlM_cons]
    obtain ⟨e, he, hl⟩ := hc k (by omega)
    have hpe : pairOf A k = some e := (pairOf_some hA).2 ⟨he, hl⟩
    have hown : OwnLoc A k ↔ e.attr = .owner := by
      constructor
      · rintro ⟨f, hf, hfl, ha⟩
        have := (pairOf_some hA).2 ⟨hf, hfl⟩
        rw [hpe] at this
        obtain rfl := Option.some.inj this
        exact ha
      · exact fun ha => ⟨e, he, hl, ha⟩
    have hYlen : (displs (ownDegs A g k)).dropLast.length = (ownList A k).length := by
      rw [List.length_dropLast, displs_length]
      unfold ownDegs
      simp
    unfold adjStep
    rw [hpe]
    dsimp only
    by_cases hao : e.attr = .owner
    · have hlt := ownList_lt (k := g.n) (by omega : k < g.n) (hown.2 hao)
      have hw : wr ((displs (ownDegs A g k)).dropLast ++ x0.drop (ownList A k).length) (ownList A k).length (ownEdges A g f k).length =
          .ok ((displs (ownDegs A g (k + 1))).dropLast ++ x0.drop (ownList A (k + 1)).length) := by
        rw [wr_lt _ (by rw [List.length_append, hYlen, List.length_drop]; omega)]
        congr 1
        rw [← hYlen, set_at_drop _ _ _ (by omega)]
        have h1 : ownDegs A g (k + 1) = ownDegs A g k ++ [(g.adj k).length] := by
          unfold ownDegs
          rw [ownList_succ, if_pos (hown.2 hao), List.map_append]
          rfl
        rw [h1, displs_snoc, List.dropLast_concat, hYlen, ownList_succ, if_pos (hown.2 hao), List.length_append, ownEdges_length]
        conv_rhs => rw [displs_last (ownDegs A g k)]
        rfl
      have hE : ownEdges A g f (k + 1) = ownEdges A g f k ++ (g.adj k).map f := by
        unfold ownEdges
        rw [ownList_succ, if_pos (hown.2 hao), List.flatMap_append]
        simp
      have hle : (ownEdges A g f k).length + (g.adj k).length ≤ a0.length := by
        have h1 := ownEdges_le A g f (k + 1)
        have h2 := range_sum_mono (fun v => (g.adj v).length) hk
        rw [hE, List.length_append, List.length_map] at h1
        omega
      rw [if_pos hao, hw, Res.ok_bind, edgeFold (f := f) (a0 := a0) (g.adj k) _ (ownEdges A g f k)
        (fun t ht => hf t (hg k (by omega) t ht)) rfl rfl hle, Res.ok_bind, List.foldlM_nil]
      rw [hE]
      have : (ownList A k).length + 1 = (ownList A (k + 1)).length := by
        rw [ownList_succ, if_pos (hown.2 hao), List.length_append]; rfl
      rw [← this, List.length_append, List.length_map]
      rfl
    · have hno : ¬ OwnLoc A k := fun h => hao (hown.1 h)
      have h1 : ownList A (k + 1) = ownList A k := by rw [ownList_succ, if_neg hno]
      rw [if_neg hao, Res.ok_bind, List.foldlM_nil]
      unfold ownEdges ownDegs
      rw [h1]
      rfl

theorem getAdjArrays_ok {A : PIS} (hA : PisOk A) {g : Graph} (hg : g.WF) (hc : ∀ i, i < g.n → ∃ e ∈ A, e.loc = i)
    {m : IdxMap} {f : Nat → Option Nat} (hf : ∀ t, t < g.n → m.toPar[t]? = some (f t))
    {x0 : List Nat} {a0 : List (Option Nat)} (hx : x0.length = (ownList A g.n).length + 1)
    (ha : a0.length = ((List.range g.n).map fun v => (g.adj v).length).sum) :
    getAdjArrays A g m x0 a0 = .ok (displs (ownDegs A g g.n), ownEdges A g f g.n ++ a0.drop (ownEdges A g f g.n).length) := by
  unfold getAdjArrays
  have hYlen : (displs (ownDegs A g g.n)).dropLast.length = (ownList A g.n).length := by
    rw [List.length_dropLast, displs_length]
    unfold ownDegs
    simp
  rw [adjLoop hA hg hc hf hx ha g.n (le_refl _), Res.ok_bind]
  dsimp only
  rw [wr_lt _ (by rw [List.length_append, hYlen, List.length_drop]; omega), Res.ok_bind]
  congr 2
  rw [← hYlen, set_at_drop _ _ _ (by omega), List.drop_eq_nil_of_le (by omega), List.append_nil, ownEdges_length]
  exact (displs_last _).symm

/-- The part of the edge array belonging to one vertex. -/
theorem slice_ok {A : PIS} {g : Graph} {f : Nat → Option Nat} {k v N : Nat} (h : (ownList A N)[k]? = some v) (rest : List (Option Nat)) :
    ∃ a b, (displs (ownDegs A g N))[k]? = some a ∧ (displs (ownDegs A g N))[k + 1]? = some b ∧
      ((ownEdges A g f N ++ rest).drop a).take (b - a) = (g.adj v).map f := by
  obtain ⟨hk, hv⟩ := List.getElem?_eq_some_iff.1 h
  have hlen : (ownDegs A g N).length = (ownList A N).length := by unfold ownDegs; simp
  refine ⟨_, _, displs_get _ k (by omega), displs_get _ (k + 1) (by omega), ?_⟩
  have hsplit : ownList A N = (ownList A N).take k ++ (v :: (ownList A N).drop (k + 1)) := by
    rw [← hv, ← List.drop_eq_getElem_cons hk, List.take_append_drop]
  have htk : ((ownDegs A g N).take k).sum = (((ownList A N).take k).flatMap fun v => (g.adj v).map f).length := by
    unfold ownDegs
    rw [← List.map_take, List.length_flatMap]
    simp
  have htk1 : ((ownDegs A g N).take (k + 1)).sum = ((ownDegs A g N).take k).sum + ((g.adj v).map f).length := by
    rw [List.take_succ_eq_append_getElem (by omega), List.sum_append]
    unfold ownDegs
    simp [hv]
  rw [htk1, Nat.add_sub_cancel_left, htk]
  have hE : ownEdges A g f N = (((ownList A N).take k).flatMap fun v => (g.adj v).map f) ++ ((g.adj v).map f ++
      (((ownList A N).drop (k + 1)).flatMap fun v => (g.adj v).map f)) := by
    unfold ownEdges
    conv_lhs => rw [hsplit]
    rw [List.flatMap_append, List.flatMap_cons]
  rw [hE, List.append_assoc, List.drop_left, List.append_assoc, List.take_left]

end Par
end Istl
