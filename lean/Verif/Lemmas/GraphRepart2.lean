import Verif.Lemmas.GraphRepart
import Verif.Lemmas.Repartition4
import Verif.Lemmas.SubGraph
import Mathlib.Data.Finset.Card

/-! # Lemmas: consecutive numbers for the partitioner -/

namespace Istl
namespace Par
open Amg

/-- The local index belongs to the process. -/
def OwnLoc (A : PIS) (i : Nat) : Prop := ∃ e ∈ A, e.loc = i ∧ e.attr = .owner

instance (A : PIS) : DecidablePred (OwnLoc A) := fun i => inferInstanceAs (Decidable (∃ e ∈ A, e.loc = i ∧ e.attr = .owner))

/-- The owned local indices below `k`. -/
def ownList (A : PIS) (k : Nat) : List Nat := (List.range k).filter fun i => OwnLoc A i

theorem ownList_succ (A : PIS) (k : Nat) : ownList A (k + 1) = if OwnLoc A k then ownList A k ++ [k] else ownList A k := by
  unfold ownList
  rw [List.range_succ, List.filter_append, List.filter_cons]
  by_cases h : OwnLoc A k
  · rw [if_pos (by simpa using h), if_pos h]; rfl
  · rw [if_neg (by simpa using h), if_neg h]; simp

theorem mem_ownList {A : PIS} {k i : Nat} : i ∈ ownList A k ↔ i < k ∧ OwnLoc A i := by
  unfold ownList
  rw [List.mem_filter, List.mem_range, decide_eq_true_eq]

theorem ownList_mono (A : PIS) {i k : Nat} (h : i ≤ k) : (ownList A i).length ≤ (ownList A k).length := by
  induction k with
  | zero => have : i = 0 := by omega
            subst this; exact le_refl _
  | succ k ih =>
    rcases Nat.lt_or_ge i (k + 1) with h1 | h1
    · refine le_trans (ih (by omega)) ?_
      rw [ownList_succ]
      split <;> simp
    · have : i = k + 1 := by omega
      subst this; exact le_refl _

theorem ownList_lt {A : PIS} {i k : Nat} (h : i < k) (ho : OwnLoc A i) : (ownList A i).length < (ownList A k).length := by
  have := ownList_mono A (show i + 1 ≤ k from h)
  rw [ownList_succ, if_pos ho, List.length_append] at this
  simp at this
  omega

/-- An owned local index is at the place given by the number of owned indices below it. -/
theorem ownList_get {A : PIS} {i k : Nat} (h : i < k) (ho : OwnLoc A i) : (ownList A k)[(ownList A i).length]? = some i := by
  induction k with
  | zero => omega
  | succ k ih =>
    rw [ownList_succ]
    by_cases hk : i < k
    · have hl := ownList_lt hk ho
      split
      · rw [List.getElem?_append_left hl]; exact ih hk
      · exact ih hk
    · have : i = k := by omega
      subst this
      rw [if_pos ho]
      simp

theorem ownList_idx {A : PIS} {k j i : Nat} (h : (ownList A k)[j]? = some i) : i < k ∧ OwnLoc A i ∧ (ownList A i).length = j := by
  obtain ⟨h1, h2⟩ := mem_ownList.1 (List.mem_of_getElem? h)
  refine ⟨h1, h2, ?_⟩
  have h3 := ownList_get h1 h2
  have hnd : (ownList A k).Nodup := List.nodup_range.filter _
  obtain ⟨a1, a2⟩ := List.getElem?_eq_some_iff.1 h3
  obtain ⟨b1, b2⟩ := List.getElem?_eq_some_iff.1 h
  exact (hnd.getElem_inj_iff).1 (a2.trans b2.symm)

theorem numOwn_eq (A : PIS) : numOwn A = owners A := by
  unfold numOwn owners
  have key : ∀ (A : PIS) (c : Nat), A.foldl (fun c e => if e.attr = .owner then c + 1 else c) c = c + (A.filter fun e => e.attr = .owner).length := by
    intro A
    induction A with
    | nil => intro c; rfl
    | cons a A ih =>
      intro c
      rw [List.foldl_cons, ih, List.filter_cons]
      by_cases h : a.attr = .owner
      · rw [if_pos h, if_pos (by simpa using h), List.length_cons]; omega
      · rw [if_neg h, if_neg (by simpa using h)]
  rw [key, Nat.zero_add]

theorem owners_eq {A : PIS} (hA : PisOk A) {n : Nat} (hb : ∀ e ∈ A, e.loc < n) : owners A = (ownList A n).length := by
  unfold owners
  have hp : ((A.filter fun e => e.attr = .owner).map fun e => e.loc).Perm (ownList A n) := by
    refine (List.perm_ext_iff_of_nodup (hA.locs.sublist (List.Sublist.map _ List.filter_sublist)) (List.nodup_range.filter _)).2 fun v => ?_
    show _ ↔ v ∈ ownList A n
    rw [mem_ownList, List.mem_map]
    constructor
    · rintro ⟨e, he, rfl⟩
      obtain ⟨h1, h2⟩ := List.mem_filter.1 he
      exact ⟨hb e h1, e, h1, rfl, by simpa using h2⟩
    · rintro ⟨_, e, he, rfl, ha⟩
      exact ⟨e, List.mem_filter.2 ⟨he, by simpa using ha⟩, rfl⟩
  rw [← hp.length_eq, List.length_map]

/-- The loop of the constructor. -/
theorem mapLoop {A : PIS} (hA : PisOk A) {n : Nat} (hb : ∀ e ∈ A, e.loc < n) (hc : ∀ i, i < n → ∃ e ∈ A, e.loc = i) (base : Nat) :
    ∀ k, k ≤ n → (List.range k).foldlM (mapStep A base) (base, ⟨List.replicate (ownList A n).length 0, List.replicate n none⟩) =
      Res.ok (base + (ownList A k).length, ⟨ownList A k ++ List.replicate ((ownList A n).length - (ownList A k).length) 0,
        (List.range n).map fun i => if i < k ∧ OwnLoc A i then some (base + (ownList A i).length) else none⟩) := by
  intro k
  induction k with
  | zero =>
    intro _
    have : ((List.range n).map fun i => if i < 0 ∧ OwnLoc A i then some (base + (ownList A i).length) else none) = List.replicate n none := by
      rw [List.eq_replicate_iff]
      constructor
      · simp
      · intro b hb
        obtain ⟨i, _, rfl⟩ := List.mem_map.1 hb
        simp
    rw [this]
    simp [ownList, pure, Pure.pure]
  | succ k ih =>
    intro hk
    rw [List.range_succ, List.foldlM_append, ih (by omega), Res.ok_bind, List.foldlM_cons]
    obtain ⟨e, he, hl⟩ := hc k (by omega)
    have hpe : pairOf A k = some e := (pairOf_some hA).2 ⟨he, hl⟩
    unfold mapStep
    rw [hpe]
    dsimp only
    have hown : OwnLoc A k ↔ e.attr = .owner := by
      constructor
      · rintro ⟨f, hf, hfl, ha⟩
        have := (pairOf_some hA).2 ⟨hf, hfl⟩
        rw [hpe] at this
        obtain rfl := Option.some.inj this
        exact ha
      · exact fun ha => ⟨e, he, hl, ha⟩
    by_cases ha : e.attr = .owner
    · have hlt := ownList_lt (k := n) (by omega : k < n) (hown.2 ha)
      have hsub : base + (ownList A k).length - base = (ownList A k).length := by omega
      have hw1 : wr (ownList A k ++ List.replicate ((ownList A n).length - (ownList A k).length) 0) (ownList A k).length e.loc =
          .ok (ownList A (k + 1) ++ List.replicate ((ownList A n).length - (ownList A (k + 1)).length) 0) := by
        rw [wr_lt _ (by simp; omega)]
        congr 1
        rw [List.set_append_right (h := le_refl _), Nat.sub_self, ownList_succ, if_pos (hown.2 ha), hl]
        have : (ownList A n).length - (ownList A k).length = ((ownList A n).length - (ownList A k ++ [k]).length) + 1 := by
          rw [List.length_append]; simp; omega
        rw [this, List.replicate_succ, List.set_cons_zero]
        simp
      have hw2 : wr ((List.range n).map fun i => if i < k ∧ OwnLoc A i then some (base + (ownList A i).length) else none) e.loc
          (some (base + (ownList A k).length)) =
          .ok ((List.range n).map fun i => if i < k + 1 ∧ OwnLoc A i then some (base + (ownList A i).length) else none) := by
        rw [wr_lt _ (by simp; omega)]
        congr 1
        refine List.ext_getElem (by simp) fun i h1 h2 => ?_
        rw [List.getElem_set]
        simp only [List.getElem_map, List.getElem_range]
        by_cases hik : k = i
        · subst hik
          rw [if_pos hl, if_pos ⟨by omega, hown.2 ha⟩]
        · rw [if_neg (by omega)]
          have : (i < k ∧ OwnLoc A i) ↔ (i < k + 1 ∧ OwnLoc A i) := by
            refine and_congr_left fun _ => ?_
            omega
          simp only [this]
      rw [if_pos ha, hsub, hw1, Res.ok_bind, hw2, Res.ok_bind, Res.ok_bind, List.foldlM_nil]
      have : base + (ownList A k).length + 1 = base + (ownList A (k + 1)).length := by
        rw [ownList_succ, if_pos (hown.2 ha), List.length_append]; rfl
      rw [this]
      rfl
    · rw [if_neg ha, Res.ok_bind, List.foldlM_nil]
      have hno : ¬ OwnLoc A k := fun h => ha (hown.1 h)
      rw [ownList_succ, if_neg hno]
      have : ((List.range n).map fun i => if i < k ∧ OwnLoc A i then some (base + (ownList A i).length) else none) =
          (List.range n).map fun i => if i < k + 1 ∧ OwnLoc A i then some (base + (ownList A i).length) else none := by
        refine List.map_congr_left fun i _ => ?_
        have : (i < k ∧ OwnLoc A i) ↔ (i < k + 1 ∧ OwnLoc A i) := by
          constructor
          · exact fun h => ⟨by omega, h.2⟩
          · intro h
            refine ⟨?_, h.2⟩
            have : i ≠ k := fun hh => hno (hh ▸ h.2)
            omega
        simp only [this]
      rw [this]
      rfl

/-! ## The numbering -/

section
variable {P : Nat} {pis : Nat → PIS} {n : Nat → Nat} {G : Finset Nat}

/-- The first number of process `p`. -/
def baseOf (pis : Nat → PIS) (p : Nat) : Nat := ∑ x ∈ Finset.range p, owners (pis x)

/-- The number of the owned local index `i` of process `p`. -/
def numAt (pis : Nat → PIS) (p i : Nat) : Nat := baseOf pis p + (ownList (pis p) i).length

open Classical in
/-- The number of a global index. -/
noncomputable def nu (P : Nat) (pis : Nat → PIS) (g : Nat) : Nat :=
  if h : ∃ p, p < P ∧ ∃ e ∈ pis p, e.g = g ∧ e.attr = .owner then numAt pis h.choose h.choose_spec.2.choose.loc else 0

theorem nu_eq (h : Decomp P pis n G) {p : Nat} (hp : p < P) {e : Idx} (he : e ∈ pis p) (ha : e.attr = .owner) :
    nu P pis e.g = numAt pis p e.loc := by
  have hex : ∃ p, p < P ∧ ∃ f ∈ pis p, f.g = e.g ∧ f.attr = .owner := ⟨p, hp, e, he, rfl, ha⟩
  unfold nu
  rw [dif_pos hex]
  have h1 := hex.choose_spec
  have h2 := h1.2.choose_spec
  have hpq := h.unique _ p h1.1 hp _ h2.1 e he h2.2.2 ha h2.2.1
  have hmem : h1.2.choose ∈ pis p := hpq ▸ h2.1
  have : h1.2.choose = e := by
    have a := (lookup_iff (h.ok p hp) e.g h1.2.choose).2 ⟨hmem, h2.2.1⟩
    have b := (lookup_iff (h.ok p hp) e.g e).2 ⟨he, rfl⟩
    rw [a] at b
    exact Option.some.inj b
  rw [this, hpq]

theorem numbering (h : Decomp P pis n G) : Numbering P pis G (nu P pis) := by
  have hown : ∀ p, p < P → ∀ e ∈ pis p, e.attr = .owner → (ownList (pis p) e.loc).length < owners (pis p) := by
    intro p hp e he ha
    rw [owners_eq (h.ok p hp) (h.bounded p hp)]
    exact ownList_lt (h.bounded p hp e he) ⟨e, he, rfl, ha⟩
  have hinj : ∀ g ∈ G, ∀ g' ∈ G, nu P pis g = nu P pis g' → g = g' := by
    intro g hg g' hg' hh
    obtain ⟨p, hp, e, he, rfl, ha⟩ := h.owned g hg
    obtain ⟨q, hq, f, hf, rfl, hb⟩ := h.owned g' hg'
    rw [nu_eq h hp he ha, nu_eq h hq hf hb] at hh
    unfold numAt at hh
    have h1 := hown p hp e he ha
    have h2 := hown q hq f hf hb
    have : p = q := block_unique (fun x => owners (pis x)) (x := baseOf pis p + (ownList (pis p) e.loc).length)
      (Nat.le_add_right _ _) (Nat.add_lt_add_left h1 _) (by rw [hh]; exact Nat.le_add_right _ _) (by rw [hh]; exact Nat.add_lt_add_left h2 _)
    subst this
    have hc : (ownList (pis p) e.loc).length = (ownList (pis p) f.loc).length := by omega
    have hl : e.loc = f.loc := by
      rcases Nat.lt_trichotomy e.loc f.loc with hlt | hlt | hlt
      · have := ownList_lt hlt ⟨e, he, rfl, ha⟩; omega
      · exact hlt
      · have := ownList_lt hlt ⟨f, hf, rfl, hb⟩; omega
    have h3 := (pairOf_some (h.ok p hp)).2 ⟨he, rfl⟩
    have h4 := (pairOf_some (h.ok p hp)).2 ⟨hf, hl.symm⟩
    rw [h3] at h4
    rw [Option.some.inj h4]
  have hblock : ∀ p, p < P → ∀ e ∈ pis p, e.attr = .owner →
      ∑ x ∈ Finset.range p, owners (pis x) ≤ nu P pis e.g ∧ nu P pis e.g < ∑ x ∈ Finset.range (p + 1), owners (pis x) := by
    intro p hp e he ha
    rw [nu_eq h hp he ha, Finset.sum_range_succ]
    have := hown p hp e he ha
    unfold numAt baseOf
    omega
  have hsur : ∀ k, k < ∑ x ∈ Finset.range P, owners (pis x) ↔ ∃ g ∈ G, nu P pis g = k := by
    intro k
    constructor
    · intro hk
      obtain ⟨p, hp, h1, h2⟩ := exists_block (fun x => owners (pis x)) P k hk
      have hi : k - baseOf pis p < (ownList (pis p) (n p)).length := by
        rw [← owners_eq (h.ok p hp) (h.bounded p hp)]
        unfold baseOf
        omega
      obtain ⟨_, ⟨e, he, hl, ha⟩, hc⟩ := ownList_idx (List.getElem?_eq_getElem hi)
      refine ⟨e.g, h.inG p hp e he, ?_⟩
      rw [nu_eq h hp he ha]
      unfold numAt
      rw [hl, hc]
      unfold baseOf at *
      omega
    · rintro ⟨g, hg, rfl⟩
      obtain ⟨p, hp, e, he, rfl, ha⟩ := h.owned g hg
      refine lt_of_lt_of_le (hblock p hp e he ha).2 ?_
      exact Finset.sum_le_sum_of_subset (Finset.range_subset_range.2 hp)
  have hcard : G.card = ∑ x ∈ Finset.range P, owners (pis x) := by
    have : G.image (nu P pis) = Finset.range (∑ x ∈ Finset.range P, owners (pis x)) := by
      ext k
      rw [Finset.mem_image, Finset.mem_range, hsur]
    rw [← Finset.card_range (∑ x ∈ Finset.range P, owners (pis x)), ← this, Finset.card_image_of_injOn]
    exact fun g hg g' hg' hh => hinj g hg g' hg' hh
  refine ⟨hinj, fun k => by rw [hcard]; exact hsur k, hblock, fun p hp e he f hf ha hb hlt => ?_⟩
  rw [nu_eq h hp he ha, nu_eq h hp hf hb]
  have := ownList_lt hlt ⟨e, he, rfl, ha⟩
  unfold numAt
  omega

theorem numbering_card (h : Decomp P pis n G) : G.card = ∑ x ∈ Finset.range P, owners (pis x) := by
  have hN := numbering h
  by_contra hne
  rcases Nat.lt_or_ge G.card (∑ x ∈ Finset.range P, owners (pis x)) with hlt | hge
  · obtain ⟨p, hp, h1, h2⟩ := exists_block (fun x => owners (pis x)) P G.card hlt
    have hi : G.card - baseOf pis p < (ownList (pis p) (n p)).length := by
      rw [← owners_eq (h.ok p hp) (h.bounded p hp)]
      unfold baseOf
      omega
    obtain ⟨_, ⟨e, he, hl, ha⟩, hc⟩ := ownList_idx (List.getElem?_eq_getElem hi)
    have : nu P pis e.g = G.card := by
      rw [nu_eq h hp he ha]
      unfold numAt
      rw [hl, hc]
      unfold baseOf at *
      omega
    have := (hN.range G.card).2 ⟨e.g, h.inG p hp e he, this⟩
    omega
  · obtain ⟨g, hg, hh⟩ := (hN.range (∑ x ∈ Finset.range P, owners (pis x))).1 (by omega)
    obtain ⟨p, hp, e, he, rfl, ha⟩ := h.owned g hg
    have h1 := (hN.block p hp e he ha).2
    have h2 := Finset.sum_le_sum_of_subset (f := fun x => owners (pis x)) (Finset.range_subset_range.2 (show p + 1 ≤ P from hp))
    omega

theorem localMap_ok (h : Decomp P pis n G) {q : Nat} (hq : q < P) :
    localMap P n pis q = .ok ⟨ownList (pis q) (n q), (List.range (n q)).map fun i => if OwnLoc (pis q) i then some (numAt pis q i) else none⟩ := by
  have hbase : ((globalNum P pis).take q).sum = baseOf pis q := by
    unfold globalNum baseOf
    rw [take_sum _ P q (le_of_lt hq)]
    exact Finset.sum_congr rfl fun x _ => numOwn_eq _
  unfold localMap
  dsimp only
  rw [hbase, numOwn_eq, owners_eq (h.ok q hq) (h.bounded q hq), mapLoop (h.ok q hq) (h.bounded q hq) (h.covered q hq) (baseOf pis q) (n q)
    (le_refl _), Res.ok_bind]
  congr 1
  simp only [Nat.sub_self, List.replicate_zero, List.append_nil, IdxMap.mk.injEq, true_and]
  refine List.map_congr_left fun i hi => ?_
  simp only [List.mem_range.1 hi, true_and]
  rfl

/-- After the communication all processes know the numbers of all their indices. -/
theorem indexMap_ok (h : Decomp P pis n G) {q : Nat} (hq : q < P) {order : List Nat} (ho : order.Perm ((List.range P).filter (· ≠ q))) :
    ∃ m, indexMap P n pis q order = .ok m ∧ m.toDune = ownList (pis q) (n q) ∧ m.toPar.length = n q ∧
      ∀ e ∈ pis q, m.toPar[e.loc]? = some (some (nu P pis e.g)) := by
  have hms : (List.range P).mapM (localMap P n pis) = .ok ((List.range P).map fun p => ⟨ownList (pis p) (n p),
      (List.range (n p)).map fun i => if OwnLoc (pis p) i then some (numAt pis p i) else none⟩) :=
    mapM_ok _ _ _ fun p hp => localMap_ok h (List.mem_range.1 hp)
  set ms := (List.range P).map fun p => (⟨ownList (pis p) (n p),
      (List.range (n p)).map fun i => if OwnLoc (pis p) i then some (numAt pis p i) else none⟩ : IdxMap) with hmsd
  have hcons : ConsistentAtOwner P pis (tableOf ms) (fun g => some (nu P pis g)) := by
    intro p hp e he ha
    unfold tableOf
    have e1 : ms[p]? = some ⟨ownList (pis p) (n p), (List.range (n p)).map fun i => if OwnLoc (pis p) i then some (numAt pis p i) else none⟩ := by
      rw [hmsd, List.getElem?_map, List.getElem?_range hp]; rfl
    rw [e1]
    dsimp only
    have e2 : ((List.range (n p)).map fun i => if OwnLoc (pis p) i then some (numAt pis p i) else none)[e.loc]? =
        some (some (numAt pis p e.loc)) := by
      rw [List.getElem?_map, List.getElem?_range (h.bounded p hp e he), Option.map_some, if_pos ⟨e, he, rfl, ha⟩]
    rw [e2]
    dsimp only
    rw [nu_eq h hp he ha]
  have hall := C36_consistent h (tableOf ms) (fun g => some (nu P pis g)) hcons
    (fun q' => if q' = q then order else (List.range P).filter (· ≠ q')) (fun q' hq' => by
      by_cases hqq : q' = q
      · subst hqq; rw [if_pos rfl]; exact ho
      · rw [if_neg hqq])
  refine ⟨⟨ownList (pis q) (n q), (List.range (n q)).map (copyOwnerToAll pis (tableOf ms) (tableOf ms) q order)⟩, ?_, rfl, by simp, ?_⟩
  · unfold indexMap
    rw [hms, Res.ok_bind, localMap_ok h hq, Res.ok_bind]
  · intro e he
    have := hall q hq e he
    dsimp only at this ⊢
    rw [if_pos rfl] at this
    rw [List.getElem?_map, List.getElem?_range (h.bounded q hq e he), Option.map_some, this]

end
end Par
end Istl
