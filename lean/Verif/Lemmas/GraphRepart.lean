import Verif.Spec.GraphRepart
import Verif.Lemmas.Repartition3
import Mathlib.Algebra.BigOperators.Intervals

/-! # Lemmas: filling the holes of the index sets -/

namespace Istl
namespace Par
open Amg

theorem take_sum (f : Nat → Nat) (P q : Nat) (hq : q ≤ P) : (((List.range P).map f).take q).sum = ∑ x ∈ Finset.range q, f x := by
  rw [← List.map_take, List.take_range, Nat.min_eq_left hq]
  clear hq
  induction q with
  | zero => rfl
  | succ q ih => rw [List.range_succ, List.map_append, List.sum_append, ih, Finset.sum_range_succ]; simp

theorem map_sum (f : Nat → Nat) (P : Nat) : ((List.range P).map f).sum = ∑ x ∈ Finset.range P, f x := by
  have := take_sum f P P (le_refl _)
  rwa [List.take_of_length_le (by simp)] at this

/-- The block of a number among consecutive blocks. -/
theorem exists_block (f : Nat → Nat) : ∀ P x, x < ∑ i ∈ Finset.range P, f i →
    ∃ p, p < P ∧ ∑ i ∈ Finset.range p, f i ≤ x ∧ x < ∑ i ∈ Finset.range p, f i + f p := by
  intro P
  induction P with
  | zero => intro x hx; simp at hx
  | succ P ih =>
    intro x hx
    by_cases h : x < ∑ i ∈ Finset.range P, f i
    · obtain ⟨p, hp, h1, h2⟩ := ih x h
      exact ⟨p, by omega, h1, h2⟩
    · rw [Finset.sum_range_succ] at hx
      exact ⟨P, by omega, by omega, hx⟩

theorem block_unique (f : Nat → Nat) {p q x : Nat} (hp1 : ∑ i ∈ Finset.range p, f i ≤ x) (hp2 : x < ∑ i ∈ Finset.range p, f i + f p)
    (hq1 : ∑ i ∈ Finset.range q, f i ≤ x) (hq2 : x < ∑ i ∈ Finset.range q, f i + f q) : p = q := by
  have mono : ∀ {a b : Nat}, a ≤ b → ∑ i ∈ Finset.range a, f i ≤ ∑ i ∈ Finset.range b, f i := fun h =>
    Finset.sum_le_sum_of_subset (Finset.range_subset_range.2 h)
  rcases Nat.lt_trichotomy p q with h | h | h
  · have := mono (a := p + 1) (b := q) h
    rw [Finset.sum_range_succ] at this
    omega
  · exact h
  · have := mono (a := q + 1) (b := p) h
    rw [Finset.sum_range_succ] at this
    omega

/-- The vertices without an entry. -/
def holeList (A : PIS) (vs : List Nat) : List Nat := vs.filter fun v => ∀ e ∈ A, e.loc ≠ v

theorem mem_holeList {A : PIS} {vs : List Nat} {v : Nat} : v ∈ holeList A vs ↔ v ∈ vs ∧ ∀ e ∈ A, e.loc ≠ v := by
  unfold holeList
  rw [List.mem_filter, decide_eq_true_eq]

theorem fillFold (A : PIS) : ∀ (vs : List Nat) (k : Nat) (acc : PIS),
    vs.foldl (fillVertex A) (k, acc) = (k + (holeList A vs).length, acc ++ ((holeList A vs).zipIdx k).map fun x => ⟨x.2, x.1, .owner⟩) := by
  intro vs
  induction vs with
  | nil => intro k acc; simp [holeList]
  | cons v vs ih =>
    intro k acc
    rw [List.foldl_cons]
    unfold holeList at ih ⊢
    rw [List.filter_cons]
    unfold fillVertex
    cases hp : pairOf A v with
    | none =>
      have hn := pairOf_none.1 hp
      dsimp only
      rw [if_pos (by simpa using hn)]
      have := ih (k + 1) (acc ++ [⟨k, v, .owner⟩])
      unfold fillVertex at this
      rw [this]
      simp only [List.length_cons, List.zipIdx_cons, List.map_cons, List.append_assoc, List.singleton_append, Prod.mk.injEq, and_true]
      omega
    | some e =>
      have hn : ¬ ∀ e ∈ A, e.loc ≠ v := by
        intro hh
        rw [pairOf_none.2 hh] at hp
        cases hp
      dsimp only
      rw [if_neg (by simpa using hn)]
      have := ih k acc
      unfold fillVertex at this
      exact this

theorem needed_eq {A : PIS} {n : Nat} (hA : PisOk A) (hb : ∀ e ∈ A, e.loc < n) : needed n A = holes n A := by
  unfold needed holes
  have hp : ((List.range n).filter fun v => ∃ e ∈ A, e.loc = v).Perm (A.map fun e => e.loc) := by
    refine (List.perm_ext_iff_of_nodup (List.nodup_range.filter _) hA.locs).2 fun v => ?_
    rw [List.mem_filter, List.mem_range, decide_eq_true_eq, List.mem_map]
    constructor
    · exact fun h => h.2
    · rintro ⟨e, he, rfl⟩
      exact ⟨hb e he, e, he, rfl⟩
  have hl := List.length_eq_length_filter_add (l := List.range n) fun v => decide (∃ e ∈ A, e.loc = v)
  have h2 := hp.length_eq
  rw [List.length_map] at h2
  have h3 : ((List.range n).filter fun v => !decide (∃ e ∈ A, e.loc = v)) = (List.range n).filter fun v => decide (∀ e ∈ A, e.loc ≠ v) := by
    refine List.filter_congr fun v _ => ?_
    rw [Bool.eq_iff_iff, Bool.not_eq_true', decide_eq_false_iff_not, decide_eq_true_eq]
    exact ⟨fun hh e he hv => hh ⟨e, he, hv⟩, fun hh ⟨e, he, hv⟩ => hh e he hv⟩
  rw [h3, List.length_range, h2] at hl
  omega

theorem le_maxGlobal (A : PIS) : ∀ e ∈ A, e.g ≤ maxGlobal A := by
  have key : ∀ (A : PIS) (m : Nat), m ≤ A.foldl (fun m e => max m e.g) m ∧ ∀ e ∈ A, e.g ≤ A.foldl (fun m e => max m e.g) m := by
    intro A
    induction A with
    | nil => intro m; simp
    | cons a A ih =>
      intro m
      obtain ⟨h1, h2⟩ := ih (max m a.g)
      rw [List.foldl_cons]
      refine ⟨le_trans (le_max_left _ _) h1, fun e he => ?_⟩
      rcases List.mem_cons.1 he with rfl | he
      · exact le_trans (le_max_right _ _) h1
      · exact h2 e he
  exact (key A 0).2

theorem le_foldl_max : ∀ (l : List Nat) (m : Nat), m ≤ l.foldl max m ∧ ∀ x ∈ l, x ≤ l.foldl max m := by
  intro l
  induction l with
  | nil => intro m; simp
  | cons a l ih =>
    intro m
    obtain ⟨h1, h2⟩ := ih (max m a)
    rw [List.foldl_cons]
    refine ⟨le_trans (le_max_left _ _) h1, fun x hx => ?_⟩
    rcases List.mem_cons.1 hx with rfl | hx
    · exact le_trans (le_max_right _ _) h1
    · exact h2 x hx

/-- The first free index. -/
def firstFree (P : Nat) (pis : Nat → PIS) : Nat := ((List.range P).map fun p => maxGlobal (pis p)).foldl max 0 + 1

theorem lt_firstFree {P : Nat} {pis : Nat → PIS} {p : Nat} (hp : p < P) {e : Idx} (he : e ∈ pis p) : e.g < firstFree P pis := by
  have h1 := le_maxGlobal (pis p) e he
  have h2 := (le_foldl_max ((List.range P).map fun p => maxGlobal (pis p)) 0).2 (maxGlobal (pis p))
    (List.mem_map.2 ⟨p, List.mem_range.2 hp, rfl⟩)
  unfold firstFree
  omega

namespace Holed
variable {P : Nat} {pis : Nat → PIS} {n : Nat → Nat} {G : Finset Nat}

theorem start (h : Holed P pis n G) {q : Nat} (hq : q < P) :
    fillStart P n pis q = firstFree P pis + ∑ x ∈ Finset.range q, holes (n x) (pis x) := by
  unfold fillStart
  rw [take_sum _ P q (le_of_lt hq)]
  unfold firstFree
  congr 1
  refine Finset.sum_congr rfl fun x hx => ?_
  have hx : x < P := lt_trans (Finset.mem_range.1 hx) hq
  exact needed_eq (h.ok x hx) (h.bounded x hx)

theorem total (h : Holed P pis n G) :
    ((List.range P).map fun p => needed (n p) (pis p)).sum = ∑ x ∈ Finset.range P, holes (n x) (pis x) := by
  rw [map_sum]
  refine Finset.sum_congr rfl fun x hx => ?_
  have hx : x < P := Finset.mem_range.1 hx
  exact needed_eq (h.ok x hx) (h.bounded x hx)

/-- The entries after the holes have been filled. -/
theorem mem_fill (h : Holed P pis n G) {q : Nat} (hq : q < P) :
    PisOk (fillIndexSetHoles P n pis q) ∧ ∀ e, e ∈ fillIndexSetHoles P n pis q ↔ e ∈ pis q ∨
      (e.attr = .owner ∧ ∃ i, (holeList (pis q) (List.range (n q)))[i]? = some e.loc ∧
        e.g = firstFree P pis + ∑ x ∈ Finset.range q, holes (n x) (pis x) + i) := by
  have hlen : (holeList (pis q) (List.range (n q))).length = holes (n q) (pis q) := rfl
  unfold fillIndexSetHoles
  rw [h.total]
  split
  · rename_i h0
    refine ⟨h.ok q hq, fun e => ⟨fun he => .inl he, ?_⟩⟩
    rintro (he | ⟨_, i, hi, _⟩)
    · exact he
    · have h1 := (List.getElem?_eq_some_iff.1 hi).1
      have h2 := Finset.sum_eq_zero_iff.1 h0 q (Finset.mem_range.2 hq)
      omega
  · rw [fillFold, h.start hq]
    dsimp only
    rw [List.nil_append]
    set k := firstFree P pis + ∑ x ∈ Finset.range q, holes (n x) (pis x) with hk
    set H := holeList (pis q) (List.range (n q)) with hH
    have hmemN : ∀ e : Idx, e ∈ (H.zipIdx k).map (fun x => (⟨x.2, x.1, .owner⟩ : Idx)) ↔
        e.attr = .owner ∧ ∃ i, H[i]? = some e.loc ∧ e.g = k + i := by
      intro e
      rw [List.mem_map]
      constructor
      · rintro ⟨⟨v, i⟩, hx, rfl⟩
        obtain ⟨h1, h2⟩ := List.mk_mem_zipIdx_iff_le_and_getElem?_sub.1 hx
        exact ⟨rfl, i - k, h2, by dsimp only; omega⟩
      · rintro ⟨ha, i, hi, hg⟩
        refine ⟨(e.loc, e.g), List.mk_mem_zipIdx_iff_le_and_getElem?_sub.2 ⟨by omega, ?_⟩, ?_⟩
        · rw [hg, Nat.add_sub_cancel_left]
          exact hi
        · cases e
          simp_all
    have hperm := List.perm_insertionSort idxLe (pis q ++ (H.zipIdx k).map fun x => (⟨x.2, x.1, .owner⟩ : Idx))
    have hHnd : H.Nodup := List.nodup_range.filter _
    refine ⟨⟨?_, ?_⟩, fun e => ?_⟩
    · have hg : ((pis q ++ (H.zipIdx k).map fun x => (⟨x.2, x.1, .owner⟩ : Idx)).map fun e => e.g).Nodup := by
        rw [List.map_append, List.nodup_append]
        refine ⟨List.pairwise_map.2 ((h.ok q hq).sorted.imp fun hh => ne_of_lt hh), ?_, ?_⟩
        · rw [List.map_map]
          have : ((fun e : Idx => e.g) ∘ fun x : Nat × Nat => (⟨x.2, x.1, .owner⟩ : Idx)) = Prod.snd := rfl
          rw [this, List.zipIdx_map_snd]
          exact List.nodup_range'
        · rintro a ha b hb rfl
          obtain ⟨e, he, rfl⟩ := List.mem_map.1 ha
          obtain ⟨f, hf, hfe⟩ := List.mem_map.1 hb
          obtain ⟨_, i, _, hg⟩ := (hmemN f).1 hf
          have := lt_firstFree hq he
          omega
      have h1 := List.pairwise_insertionSort idxLe (pis q ++ (H.zipIdx k).map fun x => (⟨x.2, x.1, .owner⟩ : Idx))
      have h2 : ((pis q ++ (H.zipIdx k).map fun x => (⟨x.2, x.1, .owner⟩ : Idx)).insertionSort idxLe).Pairwise fun a b => a.g ≠ b.g := by
        have := (hperm.map fun e => e.g).nodup_iff.2 hg
        exact List.pairwise_map.1 this
      refine (h1.and h2).imp ?_
      rintro a b ⟨x, y⟩
      exact lt_of_le_of_ne x y
    · rw [(hperm.map _).nodup_iff, List.map_append, List.nodup_append]
      refine ⟨(h.ok q hq).locs, ?_, ?_⟩
      · rw [List.map_map]
        have : ((fun e : Idx => e.loc) ∘ fun x : Nat × Nat => (⟨x.2, x.1, .owner⟩ : Idx)) = Prod.fst := rfl
        rw [this, List.zipIdx_map_fst]
        exact hHnd
      · rintro a ha b hb rfl
        obtain ⟨e, he, rfl⟩ := List.mem_map.1 ha
        obtain ⟨f, hf, hfe⟩ := List.mem_map.1 hb
        obtain ⟨_, i, hi, _⟩ := (hmemN f).1 hf
        exact (mem_holeList.1 (List.mem_of_getElem? hi)).2 e he hfe.symm
    · rw [hperm.mem_iff, List.mem_append, hmemN]

theorem fill (h : Holed P pis n G) :
    Decomp P (fillIndexSetHoles P n pis) n
      (G ∪ Finset.Ico (firstFree P pis) (firstFree P pis + ∑ x ∈ Finset.range P, holes (n x) (pis x))) := by
  have hlen : ∀ q, (holeList (pis q) (List.range (n q))).length = holes (n q) (pis q) := fun _ => rfl
  have hlt : ∀ p, p < P → ∀ e ∈ pis p, e.g < firstFree P pis := fun p hp e he => lt_firstFree hp he
  have hblk : ∀ p, p < P → ∀ i, i < holes (n p) (pis p) →
      ∑ x ∈ Finset.range p, holes (n x) (pis x) + i < ∑ x ∈ Finset.range P, holes (n x) (pis x) := by
    intro p hp i hi
    have := Finset.sum_le_sum_of_subset (f := fun x => holes (n x) (pis x)) (Finset.range_subset_range.2 (show p + 1 ≤ P from hp))
    rw [Finset.sum_range_succ] at this
    omega
  refine ⟨fun p hp => (h.mem_fill hp).1, fun p hp e he => ?_, fun p hp i hi => ?_, fun p hp e he => ?_, fun g hg => ?_,
    fun p q hp hq e he f hf ha hb hg => ?_⟩
  · rcases ((h.mem_fill hp).2 e).1 he with he | ⟨_, i, hi, _⟩
    · exact h.bounded p hp e he
    · exact List.mem_range.1 (mem_holeList.1 (List.mem_of_getElem? hi)).1
  · by_cases hk : ∃ e ∈ pis p, e.loc = i
    · obtain ⟨e, he, hl⟩ := hk
      exact ⟨e, ((h.mem_fill hp).2 e).2 (.inl he), hl⟩
    · have : i ∈ holeList (pis p) (List.range (n p)) := mem_holeList.2 ⟨List.mem_range.2 hi, fun e he hh => hk ⟨e, he, hh⟩⟩
      obtain ⟨k, hk'⟩ := List.mem_iff_getElem?.1 this
      exact ⟨⟨_, i, .owner⟩, ((h.mem_fill hp).2 _).2 (.inr ⟨rfl, k, hk', rfl⟩), rfl⟩
  · rw [Finset.mem_union, Finset.mem_Ico]
    rcases ((h.mem_fill hp).2 e).1 he with he | ⟨_, i, hi, hg⟩
    · exact .inl (h.inG p hp e he)
    · right
      have := hblk p hp i (by rw [← hlen]; exact (List.getElem?_eq_some_iff.1 hi).1)
      omega
  · rcases Finset.mem_union.1 hg with hg | hg
    · obtain ⟨p, hp, e, he, hge, ha⟩ := h.owned g hg
      exact ⟨p, hp, e, ((h.mem_fill hp).2 e).2 (.inl he), hge, ha⟩
    · obtain ⟨h1, h2⟩ := Finset.mem_Ico.1 hg
      obtain ⟨p, hp, h3, h4⟩ := exists_block (fun x => holes (n x) (pis x)) P (g - firstFree P pis) (by omega)
      have hi : g - firstFree P pis - ∑ x ∈ Finset.range p, holes (n x) (pis x) < (holeList (pis p) (List.range (n p))).length := by
        rw [hlen]; omega
      refine ⟨p, hp, ⟨g, _, .owner⟩, ((h.mem_fill hp).2 _).2 (.inr ⟨rfl, _, List.getElem?_eq_getElem hi, ?_⟩), rfl, rfl⟩
      dsimp only
      omega
  · rcases ((h.mem_fill hp).2 e).1 he with he | ⟨_, i, hi, hge⟩
    · rcases ((h.mem_fill hq).2 f).1 hf with hf | ⟨_, j, hj, hgf⟩
      · exact h.unique p q hp hq e he f hf ha hb hg
      · have := hlt p hp e he
        omega
    · have hi' := (List.getElem?_eq_some_iff.1 hi).1
      rw [hlen] at hi'
      rcases ((h.mem_fill hq).2 f).1 hf with hf | ⟨_, j, hj, hgf⟩
      · have := hlt q hq f hf
        omega
      · have hj' := (List.getElem?_eq_some_iff.1 hj).1
        rw [hlen] at hj'
        exact block_unique (fun x => holes (n x) (pis x)) (x := ∑ x ∈ Finset.range p, holes (n x) (pis x) + i) (by omega) (by omega) (by omega)
          (by omega)

end Holed
end Par
end Istl
