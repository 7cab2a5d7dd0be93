import Verif.Lemmas.GraphRepart3
import Verif.Props.C82

/-!
# C83 — the graph given to the partitioner
-/

namespace Istl
namespace Par
open Amg

variable {P : Nat} {pis : Nat → PIS} {n : Nat → Nat} {G : Finset Nat}

/-- **Filling the holes**: afterwards every unknown has an index; the old entries are kept; the added indices are owned, were not in use
anywhere and are used once. -/
theorem C83_fill_holes (h : Holed P pis n G) :
    ∃ G', G ⊆ G' ∧ G'.card = G.card + ∑ p ∈ Finset.range P, holes (n p) (pis p) ∧
      Decomp P (fillIndexSetHoles P n pis) n G' ∧
      ∀ q, q < P → (∀ e ∈ pis q, e ∈ fillIndexSetHoles P n pis q) ∧
        ∀ e ∈ fillIndexSetHoles P n pis q, e ∈ pis q ∨ (e.attr = .owner ∧ e.g ∉ G ∧ ∀ f ∈ pis q, f.loc ≠ e.loc) := by
  refine ⟨_, Finset.subset_union_left, ?_, h.fill, fun q hq => ⟨fun e he => ((h.mem_fill hq).2 e).2 (.inl he), fun e he => ?_⟩⟩
  · rw [Finset.card_union_of_disjoint, Nat.card_Ico, Nat.add_sub_cancel_left]
    rw [Finset.disjoint_left]
    intro g hg hi
    obtain ⟨p, hp, e, he, rfl, _⟩ := h.owned g hg
    have := lt_firstFree hp he
    have := (Finset.mem_Ico.1 hi).1
    omega
  · rcases ((h.mem_fill hq).2 e).1 he with he | ⟨ha, i, hi, hg⟩
    · exact .inl he
    · refine .inr ⟨ha, fun hG => ?_, (mem_holeList.1 (List.mem_of_getElem? hi)).2⟩
      obtain ⟨p, hp, f, hf, hfg, _⟩ := h.owned e.g hG
      have := lt_firstFree hp hf
      omega

/-- **Nothing to do** when every unknown has an index already. -/
theorem C83_no_holes (h : Decomp P pis n G) {q : Nat} (hq : q < P) : fillIndexSetHoles P n pis q = pis q := by
  have hH : Holed P pis n G := ⟨h.ok, h.bounded, h.inG, h.owned, h.unique⟩
  unfold fillIndexSetHoles
  rw [hH.total, if_pos]
  refine Finset.sum_eq_zero fun p hp => ?_
  have hp := Finset.mem_range.1 hp
  unfold holes
  rw [List.length_eq_zero_iff, List.filter_eq_nil_iff]
  intro v hv
  obtain ⟨e, he, hl⟩ := h.covered p hp v (List.mem_range.1 hv)
  simp only [decide_eq_true_eq, not_forall]
  exact ⟨e, he, fun hh => hh hl⟩

/-- **Distribution**: `vtxDist` holds the first number of each process and the number of all indices at its end. -/
theorem C83_vtxdist (h : Decomp P pis n G) :
    (∀ p, p ≤ P → (vtxDist P pis)[p]? = some (∑ x ∈ Finset.range p, owners (pis x))) ∧ (vtxDist P pis).length = P + 1 ∧
      (vtxDist P pis)[P]? = some G.card := by
  have key : ∀ p, p ≤ P → (vtxDist P pis)[p]? = some (∑ x ∈ Finset.range p, owners (pis x)) := by
    intro p hp
    unfold vtxDist
    rw [displs_get _ p (by unfold globalNum; simpa using hp)]
    unfold globalNum
    rw [take_sum _ P p hp]
    congr 1
    exact Finset.sum_congr rfl fun x _ => numOwn_eq _
  refine ⟨key, ?_, ?_⟩
  · unfold vtxDist globalNum
    rw [displs_length]; simp
  · rw [key P (le_refl _), numbering_card h]

/-- **Numbering**: there is one consecutive numbering of the global indices, known on every process for all of its indices, whatever the
order of the messages; the table back gives the local index of each owned number. -/
theorem C83_numbering (h : Decomp P pis n G) :
    ∃ ν, Numbering P pis G ν ∧ ∀ q, q < P → ∀ order : List Nat, order.Perm ((List.range P).filter (· ≠ q)) →
      ∃ m, indexMap P n pis q order = .ok m ∧ m.toDune.length = owners (pis q) ∧
        (∀ e ∈ pis q, m.toPar[e.loc]? = some (some (ν e.g))) ∧
        ∀ e ∈ pis q, e.attr = .owner → m.toDune[ν e.g - ∑ x ∈ Finset.range q, owners (pis x)]? = some e.loc := by
  refine ⟨nu P pis, numbering h, fun q hq order ho => ?_⟩
  obtain ⟨m, e, h1, _, h3⟩ := indexMap_ok h hq ho
  refine ⟨m, e, by rw [h1, owners_eq (h.ok q hq) (h.bounded q hq)], h3, fun e he ha => ?_⟩
  rw [nu_eq h hq he ha]
  unfold numAt baseOf
  rw [Nat.add_sub_cancel_left, h1]
  exact ownList_get (h.bounded q hq e he) ⟨e, he, rfl, ha⟩

/-- **The arrays are the graph**: with this numbering the arrays `xadj` and `adjncy` of process `q` hold, for each index it owns, the
numbers of the ends of its edges, in order and with nothing else; the arrays are large enough; indeterminate initial values do not matter. -/
theorem C83_graph (h : Decomp P pis n G) {gr : Nat → Graph} (hwf : ∀ p, p < P → (gr p).WF) (hn : ∀ p, p < P → (gr p).n = n p) :
    ∃ ν, Numbering P pis G ν ∧ ∀ q, q < P → ∀ order : List Nat, order.Perm ((List.range P).filter (· ≠ q)) →
      ∀ (x0 : List Nat) (a0 : List (Option Nat)), x0.length = owners (pis q) + 1 →
        a0.length = ((List.range (n q)).map fun v => ((gr q).adj v).length).sum →
      ∃ m xadj adjncy, indexMap P n pis q order = .ok m ∧ getAdjArrays (pis q) (gr q) m x0 a0 = .ok (xadj, adjncy) ∧
        xadj.length = owners (pis q) + 1 ∧
        ∀ e ∈ pis q, e.attr = .owner → ∃ a b,
          xadj[ν e.g - ∑ x ∈ Finset.range q, owners (pis x)]? = some a ∧ xadj[ν e.g - ∑ x ∈ Finset.range q, owners (pis x) + 1]? = some b ∧
          (∃ num : Nat → Option Nat, (∀ f ∈ pis q, num f.loc = some (ν f.g)) ∧ (adjncy.drop a).take (b - a) = ((gr q).adj e.loc).map num) ∧
          ∀ x, x ∈ (adjncy.drop a).take (b - a) ↔ ∃ g', OwnEdge P pis gr e.g g' ∧ x = some (ν g') := by
  refine ⟨nu P pis, numbering h, fun q hq order ho x0 a0 hx ha => ?_⟩
  obtain ⟨m, hm, h1, h2, h3⟩ := indexMap_ok h hq ho
  have hown := owners_eq (h.ok q hq) (h.bounded q hq)
  have hnum : ∃ num : Nat → Option Nat, (∀ f ∈ pis q, num f.loc = some (nu P pis f.g)) ∧ ∀ t, t < (gr q).n → m.toPar[t]? = some (num t) := by
    refine ⟨fun t => (m.toPar[t]?).join, fun f hf => by dsimp only; rw [h3 f hf]; rfl, fun t ht => ?_⟩
    rw [hn q hq] at ht
    obtain ⟨f, hf, rfl⟩ := h.covered q hq t ht
    dsimp only
    rw [h3 f hf]; rfl
  obtain ⟨num, hnum1, hnum2⟩ := hnum
  have hc : ∀ i, i < (gr q).n → ∃ e ∈ pis q, e.loc = i := by rw [hn q hq]; exact h.covered q hq
  have harr := getAdjArrays_ok (h.ok q hq) (hwf q hq) hc hnum2 (x0 := x0) (a0 := a0) (by rw [hx, hn q hq, hown]) (by rw [ha, hn q hq])
  refine ⟨m, _, _, hm, harr, ?_, fun e he hae => ?_⟩
  · rw [displs_length, hown]
    unfold ownDegs
    rw [List.length_map, hn q hq]
  · have hk : nu P pis e.g - ∑ x ∈ Finset.range q, owners (pis x) = (ownList (pis q) e.loc).length := by
      rw [nu_eq h hq he hae]
      unfold numAt baseOf
      omega
    rw [hk]
    obtain ⟨a, b, c1, c2, c3⟩ := slice_ok (g := gr q) (f := num) (N := (gr q).n)
      (ownList_get (by rw [hn q hq]; exact h.bounded q hq e he) ⟨e, he, rfl, hae⟩)
      (a0.drop (ownEdges (pis q) (gr q) num (gr q).n).length)
    refine ⟨a, b, c1, c2, ⟨num, hnum1, c3⟩, fun x => ?_⟩
    rw [c3, List.mem_map]
    constructor
    · rintro ⟨t, ht, rfl⟩
      obtain ⟨f, hf, rfl⟩ := hc t (hwf q hq e.loc (by rw [hn q hq]; exact h.bounded q hq e he) t ht)
      exact ⟨f.g, ⟨q, hq, e, he, hae, rfl, f, hf, rfl, ht⟩, hnum1 f hf⟩
    · rintro ⟨g', ⟨p, hp, e', he', ha', hge, f, hf, rfl, hl⟩, rfl⟩
      have hpq := h.unique p q hp hq e' he' e he ha' hae hge
      subst hpq
      have hee : e' = e := by
        have a := (lookup_iff (h.ok p hp) e.g e').2 ⟨he', hge⟩
        have b := (lookup_iff (h.ok p hp) e.g e).2 ⟨he, rfl⟩
        rw [a] at b
        exact Option.some.inj b
      subst hee
      exact ⟨f.loc, hl, hnum1 f hf⟩

/-! ## Non-vacuity: the decomposition of C81 with an interior unknown missing on process 0 and process 1 -/

def fhPis : Nat → PIS
  | 0 => [⟨1, 1, .owner⟩, ⟨2, 2, .copy⟩]
  | 1 => [⟨1, 2, .copy⟩, ⟨2, 0, .owner⟩]
  | _ => []

theorem fh_holed : Holed 2 fhPis (fun _ => 3) {1, 2} where
  ok p hp := by interval_cases p <;> exact ⟨by decide, by decide⟩
  bounded p hp := by interval_cases p <;> decide
  inG p hp := by interval_cases p <;> decide
  owned g hg := by
    have h : ∀ g ∈ ({1, 2} : Finset Nat), ∃ p, p < 2 ∧ ∃ e ∈ fhPis p, e.g = g ∧ e.attr = .owner := by decide
    exact h g hg
  unique p q hp hq := by interval_cases p <;> interval_cases q <;> decide

example : (List.range 2).map (fillIndexSetHoles 2 (fun _ => 3) fhPis) =
    [[⟨1, 1, .owner⟩, ⟨2, 2, .copy⟩, ⟨3, 0, .owner⟩], [⟨1, 2, .copy⟩, ⟨2, 0, .owner⟩, ⟨4, 1, .owner⟩]] := by decide +kernel

/-- Process 1 of C81's decomposition: its indices 2 and 3 have the numbers 2 and 3, the copy of index 1 the number 1. -/
example : indexMap 2 (fun _ => 3) (rdOld .copy) 1 [0] = .ok ⟨[0, 1], [some 2, some 3, some 1]⟩ := by decide +kernel

example : getAdjArrays (rdOld .copy 1) (rpGraph 1) ⟨[0, 1], [some 2, some 3, some 1]⟩ [7, 7, 7] [none, none, none] =
    .ok ([0, 2, 3], [some 3, some 1, some 2]) := by decide +kernel

example : Decomp 2 (rdOld .copy) (fun _ => 3) {0, 1, 2, 3} := rd_old .copy (by decide)

end Par
end Istl
