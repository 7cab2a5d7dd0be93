import Verif.Lemmas.DomainMap3
import Verif.Props.C83

/-! # Lemmas: the partition of the index set -/

namespace Istl
namespace Par
open Amg

variable {P : Nat} {pis : Nat → PIS} {n : Nat → Nat} {G : Finset Nat}

theorem setPartition_ok (h : Decomp P pis n G) {part : Nat → List Nat} {m : List Nat} (hl : ∀ p, p < P → (part p).length = owners (pis p))
    (hx : ∀ p, p < P → ∀ x ∈ part p, x < m.length) {W : Nat → Nat} (hW : InOrder P pis part m W) {p : Nat} (hp : p < P) :
    ∃ v, setPartition (pis p) (part p) (m.map some) = .ok v ∧ v.length = n p ∧
      ∀ e ∈ pis p, e.attr = .owner → v[e.loc]? = some (some (W e.g)) := by
  have hlen := decomp_length h hp
  obtain ⟨v, e, h1, h2, _⟩ := setFold (part := part p) (m := m) (pis p) 0 (List.replicate (pis p).length none) (h.ok p hp).locs
    (fun e he => by rw [List.length_replicate, hlen]; exact h.bounded p hp e he) (by rw [hl p hp]; omega) (hx p hp)
  refine ⟨v, ?_, by rw [h1, List.length_replicate, hlen], fun e he ha => ?_⟩
  · unfold setPartition
    rw [e, Res.ok_bind]
  · obtain ⟨j, hj⟩ := List.mem_iff_getElem?.1 (List.mem_filter.2 ⟨he, by simpa using ha⟩ : e ∈ (pis p).filter fun e => e.attr = .owner)
    obtain ⟨d, w, a, b, c⟩ := h2 j e hj
    have := congrArg (fun l => l[j]?) (hW p hp)
    rw [Nat.zero_add] at a
    simp only [List.getElem?_map, hj, Option.map_some, a, b] at this
    rw [c]
    rw [Option.some.inj this]

theorem partition_ok (h : Decomp P pis n G) {nparts : Nat} {part : Nat → List Nat} {m : List Nat}
    (hl : ∀ p, p < P → (partOrZero nparts (pis p) (part p)).length = owners (pis p))
    (hx : ∀ p, p < P → ∀ x ∈ partOrZero nparts (pis p) (part p), x < m.length) {W : Nat → Nat}
    (hW : InOrder P pis (fun p => partOrZero nparts (pis p) (part p)) m W)
    (hm : ∀ p, p < P → domainMapping P nparts (fun p => partOrZero nparts (pis p) (part p)) p = .ok (m.map some))
    {order : Nat → List Nat} (ho : ∀ q, q < P → (order q).Perm ((List.range P).filter (· ≠ q))) {q : Nat} (hq : q < P) :
    ∃ v, (do
        let v ← partition P nparts pis part q (order q)
        allSome v) = .ok v ∧ v.length = n q ∧ ∀ e ∈ pis q, v[e.loc]? = some (W e.g) := by
  have hv : ∀ p, ∃ v, p < P → setPartition (pis p) (partOrZero nparts (pis p) (part p)) (m.map some) = .ok v ∧
      ∀ e ∈ pis p, e.attr = .owner → v[e.loc]? = some (some (W e.g)) := by
    intro p
    by_cases hp : p < P
    · obtain ⟨v, a, _, c⟩ := setPartition_ok h hl hx hW hp
      exact ⟨v, fun _ => ⟨a, c⟩⟩
    · exact ⟨[], fun hh => absurd hh hp⟩
  choose v hv using hv
  have hvs : (List.range P).mapM (fun p => do
      let m ← domainMapping P nparts (fun p => partOrZero nparts (pis p) (part p)) p
      setPartition (pis p) (partOrZero nparts (pis p) (part p)) m) = Res.ok ((List.range P).map v) :=
    mapM_ok _ _ _ fun p hp => by
      rw [hm p (List.mem_range.1 hp), Res.ok_bind]
      exact (hv p (List.mem_range.1 hp)).1
  have hcons := C36_consistent h (vecOf ((List.range P).map v)) (fun g => some (W g)) (fun p hp e he ha => by
    unfold vecOf
    rw [List.getElem?_map, List.getElem?_range hp, Option.map_some]
    dsimp only
    rw [(hv p hp).2 e he ha]) order ho
  have hc : ∀ e ∈ pis q, copyOwnerToAll pis (vecOf ((List.range P).map v)) (vecOf ((List.range P).map v)) q (order q) e.loc = some (W e.g) :=
    fun e he => hcons q hq e he
  have hlen := decomp_length h hq
  have hloc : ∀ i, i < n q → ∃ e ∈ pis q, e.loc = i := h.covered q hq
  refine ⟨(List.range (n q)).map fun i => (copyOwnerToAll pis (vecOf ((List.range P).map v)) (vecOf ((List.range P).map v)) q (order q) i).getD 0,
    ?_, by simp, fun e he => ?_⟩
  · unfold partition
    dsimp only
    rw [hvs, Res.ok_bind, Res.ok_bind]
    unfold allSome
    rw [hlen]
    rw [List.mapM_map]
    refine mapM_ok _ _ _ fun i hi => ?_
    obtain ⟨e, he, rfl⟩ := hloc i (List.mem_range.1 hi)
    dsimp only [Function.comp]
    rw [hc e he]
    rfl
  · rw [List.getElem?_map, List.getElem?_range (h.bounded q hq e he), Option.map_some, hc e he]
    rfl

/-- `graphRepartition` is `buildCommunication` with a consistent assignment. -/
theorem graphRepartition_ok {gr : Nat → Graph} {nparts : Nat} {part : Nat → List Nat} (h : Holed P pis (fun p => (gr p).n) G)
    (hwf : ∀ p, p < P → (gr p).WF) (h0 : 0 < nparts) (hnp : nparts ≤ P)
    (hl : 1 < nparts → ∀ p, p < P → (part p).length = owners (fillIndexSetHoles P (fun p => (gr p).n) pis p))
    (hx : 1 < nparts → ∀ p, p < P → ∀ x ∈ part p, x < nparts)
    {order : Nat → List Nat} (ho : ∀ q, q < P → (order q).Perm ((List.range P).filter (· ≠ q))) {G' : Finset Nat}
    (hd : Decomp P (fillIndexSetHoles P (fun p => (gr p).n) pis) (fun p => (gr p).n) G') :
    ∃ m W parts, DomainMapping P nparts m ∧ (1 < nparts → BestMapping P part m) ∧ (nparts = 1 → m = [0]) ∧
      InOrder P (fillIndexSetHoles P (fun p => (gr p).n) pis) (fun p => partOrZero nparts (fillIndexSetHoles P (fun p => (gr p).n) pis p) (part p)) m W ∧
      Assign P (fillIndexSetHoles P (fun p => (gr p).n) pis) (fun p => (gr p).n) G' gr parts W ∧
      (∀ g ∈ G', W g ∈ m) ∧
      ∀ q order', graphRepartition P nparts gr pis part q order order' =
        buildCommunication P gr parts (fillIndexSetHoles P (fun p => (gr p).n) pis) q order' := by
  set pis' := fillIndexSetHoles P (fun p => (gr p).n) pis with hpis'
  have hlen : ∀ p, p < P → (partOrZero nparts (pis' p) (part p)).length = owners (pis' p) := by
    intro p hp
    unfold partOrZero
    by_cases h1 : nparts > 1
    · rw [if_pos h1]; exact hl h1 p hp
    · rw [if_neg h1, List.length_replicate, numOwn_owners]
  have hlt : ∀ p, p < P → ∀ x ∈ partOrZero nparts (pis' p) (part p), x < nparts := by
    intro p hp x hxm
    unfold partOrZero at hxm
    by_cases h1 : nparts > 1
    · rw [if_pos h1] at hxm; exact hx h1 p hp x hxm
    · rw [if_neg h1] at hxm
      have := (List.mem_replicate.1 hxm).2
      omega
  have hmap : ∃ m, DomainMapping P nparts m ∧ (1 < nparts → BestMapping P part m) ∧ (nparts = 1 → m = [0]) ∧
      ∀ p, p < P → domainMapping P nparts (fun p => partOrZero nparts (pis' p) (part p)) p = .ok (m.map some) := by
    by_cases h1 : nparts > 1
    · have hpp : (fun p => partOrZero nparts (pis' p) (part p)) = part := by
        funext p; unfold partOrZero; rw [if_pos h1]
      rw [hpp]
      obtain ⟨m, hm, hb, hrun⟩ := getDomain_ok (part := part) hnp (hx h1)
      refine ⟨m, hm, fun _ => hb, fun h2 => by omega, fun p hp => ?_⟩
      obtain ⟨mine, e, _⟩ := hrun p hp
      unfold domainMapping
      rw [if_pos h1, e, Res.ok_bind]
    · have h1' : nparts = 1 := by omega
      subst h1'
      exact ⟨[0], ⟨rfl, by simp; omega, by simp⟩, fun hh => by omega, fun _ => rfl, fun p hp => rfl⟩
  obtain ⟨m, hm, hb, h1, hrun⟩ := hmap
  obtain ⟨W, hW⟩ := exists_inOrder hd (part := fun p => partOrZero nparts (pis' p) (part p)) (m := m) hlen (by rw [hm.len]; exact hlt)
  have hv : ∀ p, ∃ v, p < P → (do
      let v ← partition P nparts pis' part p (order p)
      allSome v) = .ok v ∧ v.length = (gr p).n ∧ ∀ e ∈ pis' p, v[e.loc]? = some (W e.g) := by
    intro p
    by_cases hp : p < P
    · obtain ⟨v, a, b, c⟩ := partition_ok hd hlen (by rw [hm.len]; exact hlt) hW hrun ho hp
      exact ⟨v, fun _ => ⟨a, b, c⟩⟩
    · exact ⟨[], fun hh => absurd hh hp⟩
  choose v hv using hv
  have hWm : ∀ g ∈ G', W g ∈ m := by
    intro g hg
    obtain ⟨p, hp, e, he, rfl, ha⟩ := hd.owned g hg
    have hme : some (W e.g) ∈ ((pis' p).filter fun e => e.attr = .owner).map fun e => some (W e.g) :=
      List.mem_map.2 ⟨e, List.mem_filter.2 ⟨he, by simpa using ha⟩, rfl⟩
    rw [hW p hp] at hme
    obtain ⟨d, _, hd'⟩ := List.mem_map.1 hme
    exact List.mem_of_getElem? hd'
  refine ⟨m, W, fun p => ((List.range P).map v).getD p [], hm, hb, h1, hW, ⟨hd, hwf, fun _ _ => rfl, fun p hp => ?_, fun p hp e he => ?_, ?_⟩, hWm, ?_⟩
  · rw [List.getD_eq_getElem?_getD, List.getElem?_map, List.getElem?_range hp]
    exact (hv p hp).2.1
  · rw [List.getD_eq_getElem?_getD, List.getElem?_map, List.getElem?_range hp]
    exact (hv p hp).2.2 e he
  · intro g hg; exact hm.lt _ (hWm g hg)
  · intro q order'
    unfold graphRepartition
    dsimp only
    rw [mapM_ok _ _ v fun p hp => (hv p (List.mem_range.1 hp)).1, Res.ok_bind]

/-! ## Order of local and of global indices -/

theorem asNumbered_of_order (h : Decomp P pis n G) {part : Nat → List Nat} {m : List Nat} {ν W : Nat → Nat} (hν : Numbering P pis G ν)
    (hW : InOrder P pis part m W)
    (hord : ∀ p, p < P → ∀ e ∈ pis p, ∀ f ∈ pis p, e.attr = .owner → f.attr = .owner → e.g < f.g → e.loc < f.loc) :
    AsNumbered P pis part m ν W := by
  intro p hp e he ha
  set L := (pis p).filter fun e => e.attr = .owner with hL
  have heL : e ∈ L := List.mem_filter.2 ⟨he, by simpa using ha⟩
  obtain ⟨k, hk⟩ := List.mem_iff_getElem?.1 heL
  have hmemL : ∀ f ∈ L, f ∈ pis p ∧ f.attr = .owner := fun f hf => by
    have := List.mem_filter.1 hf
    exact ⟨this.1, by simpa using this.2⟩
  have hasc : (L.map fun f => ν f.g).Pairwise (· < ·) := by
    rw [List.pairwise_map]
    refine ((h.ok p hp).sorted.sublist List.filter_sublist).imp_of_mem fun {a b} ha' hb' hab => ?_
    exact hν.order p hp a (hmemL a ha').1 b (hmemL b hb').1 (hmemL a ha').2 (hmemL b hb').2
      (hord p hp a (hmemL a ha').1 b (hmemL b hb').1 (hmemL a ha').2 (hmemL b hb').2 hab)
  -- an ascending list within an interval of its length is that interval
  have key : ∀ (l : List Nat) (a : Nat), l.Pairwise (· < ·) → (∀ x ∈ l, a ≤ x ∧ x < a + l.length) → ∀ k x : Nat, l[k]? = some x → x = a + k := by
    intro l
    induction l with
    | nil => intro a _ _ k x hx; simp at hx
    | cons y l ih =>
      intro a hp hb k x hx
      rw [List.pairwise_cons] at hp
      have hge : ∀ (t : List Nat) (c : Nat), t.Pairwise (· < ·) → (∀ z ∈ t, c ≤ z) → ∀ b, (∀ z ∈ t, z < b) → t ≠ [] → c + t.length ≤ b := by
        intro t
        induction t with
        | nil => intro c _ _ b _ hne; exact absurd rfl hne
        | cons z t iht =>
          intro c hpt hc b hb' _
          rw [List.pairwise_cons] at hpt
          have hcz := hc z (List.mem_cons_self ..)
          have hzb := hb' z (List.mem_cons_self ..)
          by_cases ht : t = []
          · subst ht; simp; omega
          · have := iht (z + 1) hpt.2 (fun w hw => hpt.1 w hw) b (fun w hw => hb' w (List.mem_cons_of_mem _ hw)) ht
            rw [List.length_cons]; omega
      have hya : y = a := by
        have h1 := (hb y (List.mem_cons_self ..)).1
        by_cases hl : l = []
        · subst hl
          have := (hb y (List.mem_cons_self ..)).2
          simp at this; omega
        · have := hge l (y + 1) hp.2 (fun z hz => hp.1 z hz) (a + (l.length + 1))
            (fun z hz => (hb z (List.mem_cons_of_mem _ hz)).2) hl
          omega
      cases k with
      | zero => rw [List.getElem?_cons_zero] at hx; rw [← Option.some.inj hx, hya]; rfl
      | succ k =>
        rw [List.getElem?_cons_succ] at hx
        have := ih (a + 1) hp.2 (fun z hz => by
          have h1 := hp.1 z hz
          have h2 := (hb z (List.mem_cons_of_mem _ hz)).2
          rw [List.length_cons] at h2
          omega) k x hx
        omega
  have hkk := key (L.map fun f => ν f.g) (∑ x ∈ Finset.range p, owners (pis x)) hasc (fun x hx => by
    obtain ⟨f, hf, rfl⟩ := List.mem_map.1 hx
    have hb := hν.block p hp f (hmemL f hf).1 (hmemL f hf).2
    rw [Finset.sum_range_succ] at hb
    rw [List.length_map]
    exact hb) k (ν e.g) (by rw [List.getElem?_map, hk]; rfl)
  rw [hkk, Nat.add_sub_cancel_left]
  have := congrArg (fun l => l[k]?) (hW p hp)
  simp only [List.getElem?_map] at this
  rw [← hL, hk, Option.map_some] at this
  cases hd : (part p)[k]? with
  | none => rw [hd] at this; exact absurd this (by simp)
  | some d =>
    rw [hd, Option.map_some] at this
    exact ⟨d, rfl, (Option.some.inj this).symm⟩

end Par
end Istl
