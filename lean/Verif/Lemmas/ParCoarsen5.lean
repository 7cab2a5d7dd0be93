import Verif.Lemmas.ParCoarsen4

/-! Coarsening on several processes: the numbers. -/

namespace Istl
namespace Amg
open Par

theorem isFirst_classes {m m' : Nat → Agg} {n : Nat} (hiso : ∀ v, v < n → (m v = .iso ↔ m' v = .iso))
    (hcls : ∀ u v, u < n → v < n → (m u = m v ↔ m' u = m' v)) {v : Nat} (hv : v < n) : IsFirst m v ↔ IsFirst m' v := by
  unfold IsFirst
  rw [ne_eq, hiso v hv]
  refine and_congr Iff.rfl ?_
  constructor
  · intro h u hu hc
    exact h u hu ((hcls u v (by omega) hv).mpr hc)
  · intro h u hu hc
    exact h u hu ((hcls u v (by omega) hv).mp hc)

theorem numBelow_classes {m m' : Nat → Agg} {n : Nat} (h : ∀ v, v < n → (IsFirst m v ↔ IsFirst m' v)) {i : Nat} (hi : i ≤ n) :
    numBelow m i = numBelow m' i := by
  unfold numBelow
  congr 1
  apply Finset.filter_congr
  intro v hv
  exact h v (by have := Finset.mem_range.mp hv; omega)

variable {G : Graph} {A : PIS} {pub : Nat → Bool} {agg : Nat → Agg} {s : CoSt}

theorem Local.ownMap_id (h : Local G A pub agg s) {v : Nat} (hv : v < G.n) : (ownMap A agg v = .iso ∧ ownMap A s.agg v = .iso) ∨
    ∃ f, f < G.n ∧ IsFirst (ownMap A agg) f ∧ ownMap A agg v = ownMap A agg f ∧
      ownMap A s.agg v = .id (numBelow (ownMap A agg) f) := by
  by_cases hF : Foreign A v
  · left
    unfold ownMap
    rw [if_pos hF, if_pos hF]
    exact ⟨rfl, rfl⟩
  · have h1 : ownMap A agg v = agg v := by unfold ownMap; rw [if_neg hF]
    have h2 : ownMap A s.agg v = s.agg v := by unfold ownMap; rw [if_neg hF]
    by_cases hi : agg v = .iso
    · left; rw [h1, h2]; exact ⟨hi, h.iso v hF hi⟩
    · right
      obtain ⟨f, hle, hFf, e'⟩ := exists_first (ownMap A agg) v (by rw [h1]; exact hi)
      exact ⟨f, by omega, hFf, e', by rw [h2]; exact h.ids f v hv hFf e'⟩

theorem numBelow_inj {m : Nat → Agg} {f g : Nat} (hf : IsFirst m f) (hg : IsFirst m g) (h : numBelow m f = numBelow m g) : f = g := by
  rcases Nat.lt_trichotomy f g with hl | hl | hl
  · have := numBelow_lt _ hf hl; omega
  · exact hl
  · have := numBelow_lt _ hg hl; omega

theorem Local.congr (h : Local G A pub agg s) : (∀ v, v < G.n → (ownMap A agg v = .iso ↔ ownMap A s.agg v = .iso)) ∧
    ∀ u v, u < G.n → v < G.n → (ownMap A agg u = ownMap A agg v ↔ ownMap A s.agg u = ownMap A s.agg v) := by
  constructor
  · intro v hv
    rcases h.ownMap_id hv with ⟨h1, h2⟩ | ⟨f, -, hF, h1, h2⟩
    · rw [h1, h2]
    · rw [h1, h2]
      exact ⟨fun hc => absurd hc hF.1, fun hc => by (cases hc)⟩
  · intro u v hu hv
    rcases h.ownMap_id hu with ⟨h1, h2⟩ | ⟨f, -, hF, h1, h2⟩ <;> rcases h.ownMap_id hv with ⟨h3, h4⟩ | ⟨g, -, hg, h3, h4⟩
    · rw [h1, h2, h3, h4]
    · rw [h1, h2, h3, h4]
      exact ⟨fun hc => absurd hc.symm hg.1, fun hc => by (cases hc)⟩
    · rw [h1, h2, h3, h4]
      exact ⟨fun hc => absurd hc hF.1, fun hc => by (cases hc)⟩
    · rw [h1, h2, h3, h4]
      constructor
      · intro hc; rw [first_unique hF hg hc]
      · intro hc
        injection hc with hc
        rw [numBelow_inj hF hg hc]

theorem Local.numbered (h : Local G A pub agg s) : Numbered G (ownMap A s.agg) ∧ s.number = numBelow (ownMap A s.agg) G.n := by
  obtain ⟨h1, h2⟩ := h.congr
  have hfi : ∀ v, v < G.n → (IsFirst (ownMap A agg) v ↔ IsFirst (ownMap A s.agg) v) := fun v hv => isFirst_classes h1 h2 hv
  refine ⟨?_, by rw [h.number]; exact numBelow_classes hfi (Nat.le_refl _)⟩
  intro f hf hF
  rcases h.ownMap_id hf with ⟨_, h4⟩ | ⟨g, -, hg, h3, h4⟩
  · exact absurd h4 hF.1
  · rw [h4]
    have := first_unique hg ((hfi f hf).mpr hF) h3.symm
    subst this
    rw [numBelow_classes hfi (Nat.le_of_lt hf)]

theorem Local.connected (h : Local G A pub agg s) (hG : G.WF) (hc : OwnConnected G A agg) : OwnConnected G A s.agg := by
  obtain ⟨h1, h2⟩ := h.congr
  intro f v hf hv hF e
  have := hc f v hf hv ((isFirst_classes h1 h2 hf).mpr hF) ((h2 v f hv hf).mpr e)
  have hr : ∀ w, Relation.ReflTransGen (fun u t => t ∈ G.adj u ∧ ownMap A agg t = ownMap A agg f) f w →
      Relation.ReflTransGen (fun u t => t ∈ G.adj u ∧ ownMap A s.agg t = ownMap A s.agg f) f w ∧ w < G.n := by
    intro w hw
    induction hw with
    | refl => exact ⟨.refl, hf⟩
    | tail _ hs ih =>
      have hl := hG _ ih.2 _ hs.1
      exact ⟨ih.1.tail ⟨hs.1, (h2 _ _ hl hf).mp hs.2⟩, hl⟩
  exact (hr v this).1

namespace Run
variable {P : Nat} {pis : Nat → PIS} {G : Nat → Graph} {pub : Nat → Nat → Bool} {agg : Nat → Nat → Agg} {s : Nat → CoSt}
  {R : Nat → Nat → List (Idx × Attr)} {order : Nat → List Nat} {C : Nat → PIS} {N : Nat → Nat} (r : Run P pis G pub agg s R order C N)
include r

theorem numbers {q : Nat} (hq : q < P) : (s q).number ≤ N q ∧ (∀ c ∈ C q, (c.attr = .owner ↔ c.loc < (s q).number)) ∧
    ∀ l, (s q).number ≤ l → l < N q → ∃ c ∈ C q, c.loc = l := by
  obtain ⟨st, h1, h2, h⟩ := r.syncF hq
  refine ⟨by rw [h2]; exact h.le, ?_, ?_⟩
  · intro c hc
    have hc' : c ∈ st.1 := by rw [h1, mem_sortG] at hc; exact hc
    rcases h.new c hc' with h3 | ⟨h3, h4, -⟩
    · obtain ⟨ha, hl, -⟩ := (r.loc q hq).entry' (r.hS.ok q hq) (r.hS.bounded q hq) h3
      exact ⟨fun _ => hl, fun _ => ha⟩
    · constructor
      · intro ha
        exfalso
        obtain ⟨p, hp, d, hd, hg, hpq⟩ := r.ownerC hq hc
        have := hpq.mp ha
        subst this
        exact h4 d hd hg
      · intro hl; omega
  · intro l hl hlt
    rw [h2] at hlt
    obtain ⟨c, hc, hcl⟩ := h.full l hl hlt
    exact ⟨c, by rw [h1, mem_sortG]; exact hc, hcl⟩

end Run
end Amg
end Istl
