import Verif.Spec.SubGraph
import Verif.Spec.Aggregates
import Verif.Lemmas.Vec

/-! # Lemmas: the constructor of the subgraph -/

namespace Istl
namespace Amg

variable {G : Graph} {ex : List Bool}

/-- The sorted targets of the edges of `v` in the subgraph. -/
def subTargets (G : Graph) (ex : List Bool) (v : Nat) : List Nat :=
  if ex.getD v false then [] else ((G.adj v).filter fun t => ex.getD t false = false).insertionSort (· ≤ ·)

/-- The targets of the edges of the first `k` vertices. -/
def subCat (G : Graph) (ex : List Bool) : Nat → List Nat
  | 0 => []
  | k + 1 => subCat G ex k ++ subTargets G ex k

theorem wr_ok {α : Type} (l : List α) (i : Nat) (a : α) (h : i < l.length) : wr l i a = .ok (l.set i a) := by simp [wr, h]

theorem rd_ex {l : List Bool} {i : Nat} (h : i < l.length) : rd l i = .ok (l.getD i false) := by
  simp [rd, List.getD, List.getElem?_eq_getElem h]

theorem set_fill {α : Type} (L : List α) (k : Nat) (a : α) (hk : 0 < k) :
    (L.map some ++ List.replicate k none).set L.length (some a) = (L ++ [a]).map some ++ List.replicate (k - 1) none := by
  obtain ⟨k, rfl⟩ : ∃ j, k = j + 1 := ⟨k - 1, by omega⟩
  rw [List.set_append_right _ _ (by simp)]
  simp [List.replicate_succ]

theorem copyEdges_ok (cap : Nat) : ∀ (l L : List Nat), (∀ t ∈ l, t < ex.length) →
    L.length + (l.filter fun t => ex.getD t false = false).length ≤ cap →
    l.foldlM (copyEdge ex) (L.map some ++ List.replicate (cap - L.length) none, L.length) =
      .ok ((L ++ l.filter fun t => ex.getD t false = false).map some ++
        List.replicate (cap - (L ++ l.filter fun t => ex.getD t false = false).length) none,
        (L ++ l.filter fun t => ex.getD t false = false).length)
  | [], L, _, _ => by simp
  | t :: l, L, hl, hc => by
    rw [List.foldlM_cons]
    have ht := hl t (by simp)
    have hl' : ∀ t ∈ l, t < ex.length := fun x hx => hl x (by simp [hx])
    by_cases hx : ex.getD t false = true
    · have : copyEdge ex (L.map some ++ List.replicate (cap - L.length) none, L.length) t =
          .ok (L.map some ++ List.replicate (cap - L.length) none, L.length) := by
        unfold copyEdge
        rw [rd_ex ht, hx]
        rfl
      rw [this, Res.ok_bind, List.filter_cons_of_neg (by simp only [decide_eq_true_eq, Bool.not_eq_false]; exact hx)]
      rw [List.filter_cons_of_neg (by simp only [decide_eq_true_eq, Bool.not_eq_false]; exact hx)] at hc
      exact copyEdges_ok cap l L hl' hc
    · have hx' : ex.getD t false = false := by simpa using hx
      rw [List.filter_cons_of_pos (by simp only [decide_eq_true_eq]; exact hx')] at hc ⊢
      rw [List.length_cons] at hc
      have : copyEdge ex (L.map some ++ List.replicate (cap - L.length) none, L.length) t =
          .ok ((L ++ [t]).map some ++ List.replicate (cap - (L ++ [t]).length) none, (L ++ [t]).length) := by
        unfold copyEdge
        rw [rd_ex ht, hx']
        simp only [Res.ok_bind, Bool.false_eq_true, if_false]
        rw [wr_ok _ _ _ (by simp; omega)]
        rw [Res.ok_bind, set_fill _ _ _ (by omega)]
        simp
        omega
      rw [this, Res.ok_bind]
      have ih := copyEdges_ok cap l (L ++ [t]) hl' (by rw [List.length_append, List.length_singleton]; omega)
      rw [ih]
      simp

theorem sortCells_eq (L M : List Nat) (k : Nat) :
    sortCells ((L ++ M).map some ++ List.replicate k none) L.length (L ++ M).length =
      (L ++ M.insertionSort (· ≤ ·)).map some ++ List.replicate k none := by
  unfold sortCells
  have h1 : ((L ++ M).map some ++ List.replicate k none).take L.length = L.map some := by
    rw [List.map_append, List.append_assoc, List.take_left' (by simp)]
  have h2 : ((L ++ M).map some ++ List.replicate k (none : Option Nat)).drop L.length = M.map some ++ List.replicate k none := by
    rw [List.map_append, List.append_assoc, List.drop_left' (by simp)]
  have h3 : ((L ++ M).map some ++ List.replicate k (none : Option Nat)).drop (L ++ M).length = List.replicate k none := by
    rw [List.drop_left' (by simp)]
  rw [h1, h2, h3]
  have h4 : (M.map some ++ List.replicate k (none : Option Nat)).take ((L ++ M).length - L.length) = M.map some := by
    rw [List.take_left' (by simp)]
  rw [h4, List.filterMap_map]
  simp

/-- The offsets after `k` vertices. -/
def startsTo (G : Graph) (ex : List Bool) (k : Nat) : List (Option Int) :=
  (List.range G.n).map fun v => if v < k then some (if ex.getD v false then -1 else ((subCat G ex v).length : Int)) else none
def stopsTo (G : Graph) (ex : List Bool) (k : Nat) : List (Option Int) :=
  (List.range G.n).map fun v =>
    if v < k then some (if ex.getD v false then -1 else ((subCat G ex (v + 1)).length : Int)) else none

theorem fill_set {f : Nat → Option Int} {g : Nat → Int} {n k : Nat} :
    ((List.range n).map fun v => if v < k then some (g v) else none).set k (some (g k)) =
      (List.range n).map fun v => if v < k + 1 then some (g v) else none := by
  apply List.ext_getElem
  · simp
  · intro i h1 h2
    rw [List.getElem_set]
    simp only [List.getElem_map, List.getElem_range]
    by_cases h : k = i
    · subst h; simp
    · rw [if_neg h]
      by_cases h' : i < k
      · rw [if_pos h', if_pos (by omega)]
      · rw [if_neg h', if_neg (by omega)]

/-- State of the constructor after the first `k` vertices. -/
def subState (G : Graph) (cap : Nat) (ex : List Bool) (k : Nat) : SubSt :=
  ⟨(included k ex).length, (included k ex).foldl (fun m v => max v m) 0,
    (subCat G ex k).map some ++ List.replicate (cap - (subCat G ex k).length) none, startsTo G ex k, stopsTo G ex k,
    (subCat G ex k).length⟩

theorem included_succ (k : Nat) :
    included (k + 1) ex = if ex.getD k false then included k ex else included k ex ++ [k] := by
  unfold included
  rw [List.range_succ, List.filter_append]
  cases h : ex.getD k false
  · rw [List.filter_cons_of_pos (by simp only [decide_eq_true_eq]; exact h)]; simp
  · rw [List.filter_cons_of_neg (by simp only [decide_eq_true_eq, Bool.not_eq_false]; exact h)]; simp

theorem subTargets_length (v : Nat) : (subTargets G ex v).length ≤ (G.adj v).length := by
  unfold subTargets
  split
  · simp
  · rw [List.length_insertionSort]; exact List.length_filter_le _ _

/-- All edges of the first `k` vertices. -/
def degSum (G : Graph) : Nat → Nat
  | 0 => 0
  | k + 1 => degSum G k + (G.adj k).length

theorem degSum_mono {j k : Nat} (h : j ≤ k) : degSum G j ≤ degSum G k := by
  induction h with
  | refl => exact le_refl _
  | step _ ih => exact le_trans ih (by simp [degSum])

theorem subCat_length (k : Nat) : (subCat G ex k).length ≤ degSum G k := by
  induction k with
  | zero => simp [subCat]
  | succ k ih =>
    have := subTargets_length (G := G) (ex := ex) k
    simp only [subCat, List.length_append, degSum]
    omega

theorem subVertex_ok (cap : Nat) (hG : G.WF) (hex : ex.length = G.n) (hcap : degSum G G.n ≤ cap) (k : Nat) (hk : k < G.n) :
    subVertex G ex (subState G cap ex k) k = .ok (subState G cap ex (k + 1)) := by
  unfold subVertex
  rw [rd_ex (by omega), Res.ok_bind]
  have hs : startsTo G ex (k + 1) =
      (startsTo G ex k).set k (some (if ex.getD k false then -1 else ((subCat G ex k).length : Int))) :=
    (fill_set (f := fun _ => none) (g := fun v => if ex.getD v false then -1 else ((subCat G ex v).length : Int))).symm
  have ht : stopsTo G ex (k + 1) =
      (stopsTo G ex k).set k (some (if ex.getD k false then -1 else ((subCat G ex (k + 1)).length : Int))) :=
    (fill_set (f := fun _ => none) (g := fun v => if ex.getD v false then -1 else ((subCat G ex (v + 1)).length : Int))).symm
  have hsl : k < (startsTo G ex k).length := by simp [startsTo, hk]
  have htl : k < (stopsTo G ex k).length := by simp [stopsTo, hk]
  by_cases hx : ex.getD k false = true
  · rw [hx, if_pos rfl]
    have hc : subCat G ex (k + 1) = subCat G ex k := by
      unfold subCat subTargets; rw [if_pos hx, List.append_nil]; cases k <;> rfl
    have hi : included (k + 1) ex = included k ex := by rw [included_succ, hx, if_pos rfl]
    have e1 : wr (subState G cap ex k).stop k (some (-1)) = .ok (stopsTo G ex (k + 1)) := by
      rw [ht, hx, if_pos rfl]; exact wr_ok _ _ _ htl
    have e2 : wr (subState G cap ex k).start k (some (-1)) = .ok (startsTo G ex (k + 1)) := by
      rw [hs, hx, if_pos rfl]; exact wr_ok _ _ _ hsl
    rw [e1, Res.ok_bind, e2, Res.ok_bind]
    unfold subState
    rw [hc, hi]
  · have hx' : ex.getD k false = false := by simpa using hx
    rw [hx', if_neg (by simp)]
    have hi : included (k + 1) ex = included k ex ++ [k] := by rw [included_succ, hx']; simp
    have hT : subTargets G ex k = ((G.adj k).filter fun t => ex.getD t false = false).insertionSort (· ≤ ·) := by
      unfold subTargets; rw [hx', if_neg (by simp)]
    have e2 : wr (subState G cap ex k).start k (some ((subState G cap ex k).edge : Int)) = .ok (startsTo G ex (k + 1)) := by
      rw [hs, hx', if_neg (by simp)]; exact wr_ok _ _ _ hsl
    have hlen := subCat_length (G := G) (ex := ex) k
    have hmono := degSum_mono (G := G) (j := k + 1) (k := G.n) (by omega)
    have hfl : ((G.adj k).filter fun t => ex.getD t false = false).length ≤ (G.adj k).length := List.length_filter_le _ _
    have hd : degSum G (k + 1) = degSum G k + (G.adj k).length := rfl
    have e3 := copyEdges_ok (ex := ex) cap (G.adj k) (subCat G ex k) (fun t h => by have := hG k hk t h; omega) (by omega)
    rw [e2, Res.ok_bind]
    have e3' : (G.adj k).foldlM (copyEdge ex) ((subState G cap ex k).edges, (subState G cap ex k).edge) = _ := e3
    rw [e3', Res.ok_bind]
    have hcl : (subCat G ex k ++ (G.adj k).filter fun t => ex.getD t false = false).length = (subCat G ex (k + 1)).length := by
      simp only [subCat, hT, List.length_append, List.length_insertionSort]
    have e4 : wr (subState G cap ex k).stop k
        (some (((subCat G ex k ++ (G.adj k).filter fun t => ex.getD t false = false).length : Nat) : Int)) =
        .ok (stopsTo G ex (k + 1)) := by
      rw [ht, hx', if_neg (by simp), hcl]; exact wr_ok _ _ _ htl
    rw [e4, Res.ok_bind]
    have e5 := sortCells_eq (subCat G ex k) ((G.adj k).filter fun t => ex.getD t false = false)
      (cap - (subCat G ex k ++ (G.adj k).filter fun t => ex.getD t false = false).length)
    have e5' : sortCells ((subCat G ex k ++ (G.adj k).filter fun t => ex.getD t false = false).map some ++
        List.replicate (cap - (subCat G ex k ++ (G.adj k).filter fun t => ex.getD t false = false).length) none)
        (subState G cap ex k).edge (subCat G ex k ++ (G.adj k).filter fun t => ex.getD t false = false).length = _ := e5
    rw [e5', hcl, ← hT]
    unfold subState
    rw [hi]
    simp [subCat, List.foldl_append]

theorem subFold_ok (cap : Nat) (hG : G.WF) (hex : ex.length = G.n) (hcap : degSum G G.n ≤ cap) :
    ∀ k ≤ G.n, (List.range k).foldlM (subVertex G ex) (subState G cap ex 0) = .ok (subState G cap ex k)
  | 0, _ => rfl
  | k + 1, hk => by
    rw [List.range_succ, List.foldlM_append, subFold_ok cap hG hex hcap k (by omega), Res.ok_bind, List.foldlM_cons,
      subVertex_ok cap hG hex hcap k (by omega), Res.ok_bind]
    rfl

theorem subGraph_ok (cap : Nat) (hG : G.WF) (hex : ex.length = G.n) (hcap : degSum G G.n ≤ cap) (hn : 0 < G.n) :
    mkSubGraph G cap ex = .ok ⟨ex, (included G.n ex).length, (included G.n ex).foldl (fun m v => max v m) 0 + 1,
      some (subCat G ex G.n).length,
      (subCat G ex G.n).map some ++ List.replicate (cap - (subCat G ex G.n).length) none, startsTo G ex G.n, stopsTo G ex G.n⟩ := by
  unfold mkSubGraph
  rw [if_neg (by omega)]
  have h0 : (⟨0, 0, List.replicate cap none, List.replicate G.n none, List.replicate G.n none, 0⟩ : SubSt) =
      subState G cap ex 0 := by
    have h1 : ∀ (g : Nat → Option Int), (∀ v, g v = none) → (List.range G.n).map g = List.replicate G.n none := by
      intro g hg
      apply List.ext_getElem <;> simp [hg]
    unfold subState startsTo stopsTo
    rw [h1 _ (by simp), h1 _ (by simp)]
    simp [included, subCat]
  rw [h0, subFold_ok cap hG hex hcap G.n (le_refl _), Res.ok_bind]
  rfl

end Amg
end Istl
