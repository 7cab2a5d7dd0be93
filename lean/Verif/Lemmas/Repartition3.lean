import Verif.Lemmas.Repartition2
import Verif.Props.C36

/-! # Lemmas: the result of `buildCommunication` -/

namespace Istl
namespace Par
open Amg MatMat

namespace Assign
variable {P : Nat} {old : Nat → PIS} {osz : Nat → Nat} {G : Finset Nat} {gr : Nat → Graph} {parts : Nat → List Nat} {W : Nat → Nat}

/-- What is known after the messages have been received. -/
structure Collected (P : Nat) (old : Nat → PIS) (gr : Nat → Graph) (W : Nat → Nat) (q : Nat) (L : List (Nat × Nat)) (m : Mine) : Prop where
  asc : (L.map Prod.fst).Pairwise (· < ·)
  mem : ∀ g p, (g, p) ∈ L ↔ p < P ∧ ∃ e ∈ old p, e.attr = .owner ∧ e.g = g ∧ W g = q
  ovl : m.ovl.Pairwise (· < ·)
  memOvl : ∀ x, x ∈ m.ovl ↔ ∃ p, p < P ∧ ∃ f, Cand (old p) (gr p) W q f ∧ f.g = x
  procs : m.procs.Pairwise (· < ·)
  memProcs : ∀ x, x ∈ m.procs ↔ ∃ p, p < P ∧ ∃ f, Cand (old p) (gr p) W q f ∧ W f.g = x

theorem collect (h : Assign P old osz G gr parts W) {q : Nat} {order : List Nat} (ho : order.Perm ((List.range P).filter fun p => q ∈ parts p)) :
    ∃ m, receiveAll gr parts old q order = .ok m ∧ Collected P old gr W q (m.owner.insertionSort pairLe) m := by
  have hmem : ∀ p, p ∈ order ↔ p < P ∧ q ∈ parts p := by
    intro p
    rw [ho.mem_iff, List.mem_filter, List.mem_range, decide_eq_true_eq]
  have hnd : order.Nodup := by rw [ho.nodup_iff]; exact List.nodup_range.filter _
  obtain ⟨m, e, h1, h2, h3, h4, h5⟩ := h.receive q order (fun p hp => ((hmem p).1 hp).1) ⟨[], [], []⟩ List.Pairwise.nil List.Pairwise.nil
  have hM : ∀ g p, (g, p) ∈ m.owner ↔ p < P ∧ ∃ e ∈ old p, e.attr = .owner ∧ e.g = g ∧ W g = q := by
    intro g p
    rw [h3, List.nil_append, List.mem_flatMap]
    constructor
    · rintro ⟨p', hp', hx⟩
      obtain ⟨e, he, hx⟩ := List.mem_map.1 hx
      obtain ⟨he1, he2, he3⟩ := mem_going.1 he
      obtain ⟨rfl, rfl⟩ := Prod.mk.inj hx
      exact ⟨((hmem _).1 hp').1, e, he1, he2, rfl, he3⟩
    · rintro ⟨hp, e, he1, he2, rfl, he3⟩
      exact ⟨p, (hmem p).2 ⟨hp, h.goes hp he1 he3⟩, List.mem_map.2 ⟨e, mem_going.2 ⟨he1, he2, he3⟩, rfl⟩⟩
  have hperm := List.perm_insertionSort pairLe m.owner
  have hcand : ∀ (Q : Idx → Prop), (∃ p ∈ order, ∃ f, Cand (old p) (gr p) W q f ∧ Q f) ↔ ∃ p, p < P ∧ ∃ f, Cand (old p) (gr p) W q f ∧ Q f := by
    intro Q
    constructor
    · rintro ⟨p, hp, f, hf, hQ⟩
      exact ⟨p, ((hmem p).1 hp).1, f, hf, hQ⟩
    · rintro ⟨p, hp, f, hf, hQ⟩
      have hf0 := hf
      obtain ⟨e, he, _, hw, _⟩ := hf0
      exact ⟨p, (hmem p).2 ⟨hp, h.goes hp he hw⟩, f, hf, hQ⟩
  refine ⟨m, e, ⟨?_, ?_, h1, ?_, h2, ?_⟩⟩
  · have hnf : (m.owner.map Prod.fst).Nodup := by
      rw [h3, List.nil_append, List.map_flatMap, List.nodup_flatMap]
      constructor
      · intro p hp
        rw [List.map_map]
        have hs := (h.dec.ok p ((hmem p).1 hp).1).sorted
        have : (going W q (old p)).Pairwise fun a b => a.g < b.g := hs.sublist List.filter_sublist
        exact List.pairwise_map.2 (this.imp fun hh => ne_of_lt hh)
      · refine hnd.imp_of_mem ?_
        intro a b ha hb hab
        rw [Function.onFun, List.disjoint_left]
        intro x hx hy
        rw [List.map_map, List.mem_map] at hx hy
        obtain ⟨e, he, rfl⟩ := hx
        obtain ⟨f, hf, hfe⟩ := hy
        obtain ⟨he1, he2, he3⟩ := mem_going.1 he
        obtain ⟨hf1, hf2, hf3⟩ := mem_going.1 hf
        exact hab (h.dec.unique a b ((hmem a).1 ha).1 ((hmem b).1 hb).1 e he1 f hf1 he2 hf2 hfe.symm)
    have hnd' : ((m.owner.insertionSort pairLe).map Prod.fst).Nodup := by rw [(hperm.map _).nodup_iff]; exact hnf
    have h1 : (m.owner.insertionSort pairLe).Pairwise pairLe := List.pairwise_insertionSort _ _
    have h2 : (m.owner.insertionSort pairLe).Pairwise fun a b => a.1 ≠ b.1 := List.pairwise_map.1 hnd'
    refine List.pairwise_map.2 ((h1.and h2).imp ?_)
    rintro a b ⟨x, y⟩
    unfold pairLe at x
    omega
  · intro g p
    rw [hperm.mem_iff]
    exact hM g p
  · intro x
    rw [h4 x, hcand (fun f => f.g = x)]
    simp
  · intro x
    rw [h5 x, hcand (fun f => W f.g = x)]
    simp

theorem Collected.memFst (h : Assign P old osz G gr parts W) {q : Nat} {L : List (Nat × Nat)} {m : Mine} (c : Collected P old gr W q L m)
    (g : Nat) : g ∈ L.map Prod.fst ↔ g ∈ G ∧ W g = q := by
  rw [List.mem_map]
  constructor
  · rintro ⟨⟨g', p⟩, hx, rfl⟩
    obtain ⟨hp, e, he, ha, rfl, hw⟩ := (c.mem _ _).1 hx
    exact ⟨h.dec.inG p hp e he, hw⟩
  · rintro ⟨hg, hw⟩
    obtain ⟨p, hp, e, he, hge, ha⟩ := h.dec.owned g hg
    exact ⟨(g, p), (c.mem _ _).2 ⟨hp, e, he, ha, hge, hw⟩, rfl⟩

theorem Collected.memCopy (h : Assign P old osz G gr parts W) {q : Nat} {L : List (Nat × Nat)} {m : Mine} (c : Collected P old gr W q L m)
    (g : Nat) : g ∈ mergeVec (L.map Prod.fst) m.ovl ↔ W g ≠ q ∧ ∃ g0, W g0 = q ∧ OwnEdge P old gr g0 g := by
  rw [mergeVec_eq _ _ c.ovl c.asc, List.mem_filter, decide_eq_true_eq, c.memOvl, c.memFst h]
  constructor
  · rintro ⟨⟨p, hp, f, ⟨e, he, ha, hw, hf, hl, hc⟩, rfl⟩, hn⟩
    exact ⟨fun hh => hn ⟨h.dec.inG p hp f hf, hh⟩, e.g, hw, p, hp, e, he, ha, rfl, f, hf, rfl, hl⟩
  · rintro ⟨hn, g0, hw, p, hp, e, he, ha, rfl, f, hf, rfl, hl⟩
    exact ⟨⟨p, hp, f, ⟨e, he, ha, hw, hf, hl, .inl hn⟩, rfl⟩, fun hh => hn hh.2⟩

theorem asc_get {l : List Nat} (h : l.Pairwise (· < ·)) {i j a b : Nat} (hi : l[i]? = some a) (hj : l[j]? = some b) (hab : a < b) : i < j := by
  obtain ⟨hi', rfl⟩ := List.getElem?_eq_some_iff.1 hi
  obtain ⟨hj', rfl⟩ := List.getElem?_eq_some_iff.1 hj
  by_contra hn
  rcases Nat.lt_or_ge j i with hlt | hge
  · have := List.pairwise_iff_getElem.1 h j i hj' hi' hlt
    omega
  · have : i = j := by omega
    subst this
    omega

theorem fst_get {L : List (Nat × Nat)} {i g p : Nat} (h : L[i]? = some (g, p)) : (L.map Prod.fst)[i]? = some g := by
  rw [List.getElem?_map, h]; rfl

/-- The entries of the new index set. -/
theorem mem_new {q : Nat} {m : Mine} (c : Collected P old gr W q (m.owner.insertionSort pairLe) m) :
    PisOk (newIndices m) ∧
    (newIndices m).length = (m.owner.insertionSort pairLe).length + (mergeVec ((m.owner.insertionSort pairLe).map Prod.fst) m.ovl).length ∧
    ∀ e, e ∈ newIndices m ↔ (e.attr = .owner ∧ ∃ p, (m.owner.insertionSort pairLe)[e.loc]? = some (e.g, p)) ∨
      (e.attr = .copy ∧ (m.owner.insertionSort pairLe).length ≤ e.loc ∧
        (mergeVec ((m.owner.insertionSort pairLe).map Prod.fst) m.ovl)[e.loc - (m.owner.insertionSort pairLe).length]? = some e.g) := by
  refine idxSort_spec _ _ c.asc ?_ ?_
  · rw [mergeVec_eq _ _ c.ovl c.asc]
    exact c.ovl.sublist List.filter_sublist
  · intro x hx
    rw [mergeVec_eq _ _ c.ovl c.asc, List.mem_filter, decide_eq_true_eq] at hx
    exact hx.2

theorem newSet (h : Assign P old osz G gr parts W) {q : Nat} {m : Mine}
    (c : Collected P old gr W q (m.owner.insertionSort pairLe) m) : NewSet P old G gr W q (newIndices m) := by
  obtain ⟨h1, h2, h3⟩ := mem_new c
  have hCasc : (mergeVec ((m.owner.insertionSort pairLe).map Prod.fst) m.ovl).Pairwise (· < ·) := by
    rw [mergeVec_eq _ _ c.ovl c.asc]
    exact c.ovl.sublist List.filter_sublist
  refine ⟨h1, fun g => ?_, fun g => ?_, fun e he => ?_, fun e he => ?_, fun e he f hf ha hb => ?_, fun e he f hf hab hlt => ?_⟩
  · rw [← c.memFst h, List.mem_map]
    constructor
    · rintro ⟨e, he, rfl, ha⟩
      rcases (h3 e).1 he with ⟨_, p, hp⟩ | ⟨hc, _⟩
      · exact ⟨_, List.mem_of_getElem? hp, rfl⟩
      · rw [ha] at hc; cases hc
    · rintro ⟨⟨g', p⟩, hx, rfl⟩
      obtain ⟨i, hi⟩ := List.mem_iff_getElem?.1 hx
      exact ⟨⟨g', i, .owner⟩, (h3 _).2 (.inl ⟨rfl, p, hi⟩), rfl, rfl⟩
  · rw [← c.memCopy h]
    constructor
    · rintro ⟨e, he, rfl, ha⟩
      rcases (h3 e).1 he with ⟨hc, _⟩ | ⟨_, _, hp⟩
      · rw [ha] at hc; cases hc
      · exact List.mem_of_getElem? hp
    · intro hx
      obtain ⟨i, hi⟩ := List.mem_iff_getElem?.1 hx
      refine ⟨⟨g, i + (m.owner.insertionSort pairLe).length, .copy⟩, (h3 _).2 (.inr ⟨rfl, Nat.le_add_left .., ?_⟩), rfl, rfl⟩
      dsimp only
      rw [Nat.add_sub_cancel]
      exact hi
  · rcases (h3 e).1 he with ⟨hc, _⟩ | ⟨hc, _⟩ <;> rw [hc] <;> decide
  · rw [h2]
    rcases (h3 e).1 he with ⟨_, p, hp⟩ | ⟨_, hl, hp⟩
    · have := (List.getElem?_eq_some_iff.1 hp).1
      omega
    · have := (List.getElem?_eq_some_iff.1 hp).1
      omega
  · rcases (h3 e).1 he with ⟨_, p, hp⟩ | ⟨hc, _⟩
    · rcases (h3 f).1 hf with ⟨hc, _⟩ | ⟨_, hl, _⟩
      · rw [hb] at hc; cases hc
      · have := (List.getElem?_eq_some_iff.1 hp).1
        omega
    · rw [ha] at hc; cases hc
  · rcases (h3 e).1 he with ⟨ha, p, hp⟩ | ⟨ha, hl, hp⟩
    · rcases (h3 f).1 hf with ⟨hb, p', hp'⟩ | ⟨hb, _⟩
      · exact asc_get c.asc (fst_get hp) (fst_get hp') hlt
      · rw [hab, hb] at ha; cases ha
    · rcases (h3 f).1 hf with ⟨hb, _⟩ | ⟨hb, hl', hp'⟩
      · rw [hab, hb] at ha; cases ha
      · have := asc_get hCasc hp hp' hlt
        omega

/-- A set satisfying the specification has local indices exactly `0, …, n-1`. -/
theorem covered_of_bounded {A : PIS} (h : PisOk A) (hb : ∀ e ∈ A, e.loc < A.length) : ∀ i, i < A.length → ∃ e ∈ A, e.loc = i := by
  intro i hi
  have hsub : (A.map fun e => e.loc) ⊆ List.range A.length := by
    intro x hx
    obtain ⟨e, he, rfl⟩ := List.mem_map.1 hx
    exact List.mem_range.2 (hb e he)
  have hp : (A.map fun e => e.loc).Perm (List.range A.length) := by
    refine List.Subperm.perm_of_length_le (List.subperm_of_subset h.locs hsub) ?_
    simp
  have : i ∈ A.map fun e => e.loc := hp.mem_iff.2 (List.mem_range.2 hi)
  obtain ⟨e, he, hh⟩ := List.mem_map.1 this
  exact ⟨e, he, hh⟩

/-- New index sets on all processes form a decomposition. -/
theorem decomp (h : Assign P old osz G gr parts W) {new : Nat → PIS} (hn : ∀ q, q < P → NewSet P old G gr W q (new q)) :
    Decomp P new (fun q => (new q).length) G := by
  refine ⟨fun q hq => (hn q hq).ok, fun q hq => (hn q hq).bounded, fun q hq => covered_of_bounded (hn q hq).ok (hn q hq).bounded,
    fun q hq e he => ?_, fun g hg => ?_, fun p q hp hq e he f hf ha hb hg => ?_⟩
  · cases ha : e.attr with
    | owner => exact (((hn q hq).owner e.g).1 ⟨e, he, rfl, ha⟩).1
    | overlap => exact absurd ha ((hn q hq).attr e he)
    | copy =>
      obtain ⟨_, g0, _, p, hp, e0, _, _, _, f, hf, hfg, _⟩ := ((hn q hq).copy e.g).1 ⟨e, he, rfl, ha⟩
      rw [← hfg]
      exact h.dec.inG p hp f hf
  · have hq := h.lt g hg
    obtain ⟨e, he, hge, ha⟩ := ((hn (W g) hq).owner g).2 ⟨hg, rfl⟩
    exact ⟨W g, hq, e, he, hge, ha⟩
  · have h1 := (((hn p hp).owner e.g).1 ⟨e, he, rfl, ha⟩).2
    have h2 := (((hn q hq).owner f.g).1 ⟨f, hf, rfl, hb⟩).2
    rw [← h1, ← h2, hg]

/-- **Closed**: the end points of the edges of an owned index are known. -/
theorem closed (h : Assign P old osz G gr parts W) {new : PIS} {q : Nat} (hn : NewSet P old G gr W q new) {e : Idx} (he : e ∈ new)
    (ha : e.attr = .owner) {g : Nat} (hg : OwnEdge P old gr e.g g) : ∃ f ∈ new, f.g = g := by
  have hw := ((hn.owner e.g).1 ⟨e, he, rfl, ha⟩).2
  by_cases hgq : W g = q
  · have hG : g ∈ G := by
      obtain ⟨p, hp, _, _, _, _, f, hf, hfg, _⟩ := hg
      rw [← hfg]; exact h.dec.inG p hp f hf
    obtain ⟨f, hf, hfg, _⟩ := (hn.owner g).2 ⟨hG, hgq⟩
    exact ⟨f, hf, hfg⟩
  · obtain ⟨f, hf, hfg, _⟩ := (hn.copy g).2 ⟨hgq, e.g, hw, hg⟩
    exact ⟨f, hf, hfg⟩

end Assign
end Par
end Istl
