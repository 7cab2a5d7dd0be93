import Verif.Lemmas.Bfs
import Verif.Spec.Aggregates
import Mathlib.Tactic.IntervalCases

/-! # C43 — renumbering keeps the partition -/

namespace Istl
namespace Amg

theorem first_unique {agg : Nat → Agg} {f g : Nat} (hf : IsFirst agg f) (hg : IsFirst agg g) (h : agg f = agg g) : f = g := by
  rcases Nat.lt_trichotomy f g with hl | hl | hl
  · exact absurd h (hg.2 f hl)
  · exact hl
  · exact absurd h.symm (hf.2 g hl)

theorem exists_first (agg : Nat → Agg) : ∀ v, agg v ≠ .iso → ∃ f, f ≤ v ∧ IsFirst agg f ∧ agg v = agg f := by
  intro v
  induction v using Nat.strong_induction_on with
  | _ v ih =>
    intro hv
    by_cases h : ∃ u, u < v ∧ agg u = agg v
    · obtain ⟨u, hu, he⟩ := h
      obtain ⟨f, hf, hF, e⟩ := ih u hu (by rw [he]; exact hv)
      exact ⟨f, by omega, hF, by rw [← he, e]⟩
    · push Not at h
      exact ⟨v, le_refl _, ⟨hv, h⟩, rfl⟩

theorem numBelow_succ (agg : Nat → Agg) (v : Nat) :
    numBelow agg (v + 1) = numBelow agg v + if IsFirst agg v then 1 else 0 := by
  unfold numBelow
  rw [Finset.range_add_one, Finset.filter_insert]
  split
  · rw [Finset.card_insert_of_notMem (by simp)]
  · rfl

theorem numBelow_mono (agg : Nat → Agg) {u v : Nat} (h : u ≤ v) : numBelow agg u ≤ numBelow agg v :=
  Finset.card_le_card (Finset.filter_subset_filter _ (Finset.range_mono h))

theorem numBelow_lt (agg : Nat → Agg) {u v : Nat} (hu : IsFirst agg u) (h : u < v) : numBelow agg u < numBelow agg v := by
  have := numBelow_succ agg u
  rw [if_pos hu] at this
  have := numBelow_mono agg (show u + 1 ≤ v from h)
  omega

/-- state after the vertices below `i` -/
structure RInv (G : Graph) (agg : Nat → Agg) (i : Nat) (s : RenSt) : Prop where
  number : s.number = numBelow agg i
  iso : ∀ v, agg v = .iso → s.mark v = false ∧ s.agg v = .iso
  done : ∀ f v, v < G.n → IsFirst agg f → agg v = agg f → f < i → s.mark v = true ∧ s.agg v = .id (numBelow agg f)
  todo : ∀ f v, v < G.n → IsFirst agg f → agg v = agg f → i ≤ f → s.mark v = false ∧ s.agg v = agg v
  out : ∀ v, G.n ≤ v → s.mark v = false ∧ s.agg v = agg v

theorem bob_renum (G : Graph) (num start : Nat) (a : Agg) (m0 : Nat → Bool) (A0 : Nat → Agg) :
    BOb G (renumVisitor num) a m0 A0
      (fun vis _ d => start ∈ vis ∧ ∀ w, d w = if w ∈ vis ∧ w ≠ start then .id num else A0 w) := by
  refine ⟨?_, ?_, ?_, ?_, ?_⟩
  · intro d u t w hw
    simp only [renumVisitor]
    rw [upd_ne _ _ hw]
  · intros; rfl
  · intro vis E d u t ⟨hs, hd⟩ _ _ ht _ _
    refine ⟨List.mem_append_left _ hs, ?_⟩
    intro w
    simp only [renumVisitor]
    by_cases hw : w = t
    · subst hw
      have : w ≠ start := fun hc => ht (hc ▸ hs)
      simp [this]
    · rw [upd_ne _ _ hw, hd w]
      simp [hw]
  · intro vis E d u t h _ _ _ _; exact h
  · intro vis E d u t h _ _ _; exact h

theorem renum_step (G : Graph) (hG : G.WF) (agg : Nat → Agg) (hc : ConnectedAggs G agg) (fuel : Nat) (hf : G.n + 1 ≤ fuel)
    (i : Nat) (hi : i < G.n) (s : RenSt) (h : RInv G agg i s) :
    ∃ s', renumStep G fuel s i = some s' ∧ RInv G agg (i + 1) s' := by
  unfold renumStep
  by_cases hiso : agg i = .iso
  · have h1 := h.iso i hiso
    rw [if_neg (by simp [h1.2])]
    have hnf : ¬ IsFirst agg i := fun hc => hc.1 hiso
    refine ⟨s, rfl, ?_, h.iso, ?_, ?_, h.out⟩
    · rw [numBelow_succ, if_neg hnf]; exact h.number
    · intro f v hv hF e hfi
      have : f ≠ i := fun hc => hnf (hc ▸ hF)
      exact h.done f v hv hF e (by omega)
    · intro f v hv hF e hfi
      exact h.todo f v hv hF e (by omega)
  · obtain ⟨f, hfi, hF, e⟩ := exists_first agg i hiso
    rcases Nat.lt_or_ge f i with hlt | hge
    · have h1 := h.done f i hi hF e hlt
      rw [if_neg (by simp [h1.1])]
      have hnf : ¬ IsFirst agg i := fun hc => by have := first_unique hF hc e.symm; omega
      refine ⟨s, rfl, ?_, h.iso, ?_, ?_, h.out⟩
      · rw [numBelow_succ, if_neg hnf]; exact h.number
      · intro f v hv hF e hfi
        have : f ≠ i := fun hc => hnf (hc ▸ hF)
        exact h.done f v hv hF e (by omega)
      · intro f v hv hF e hfi
        exact h.todo f v hv hF e (by omega)
    · obtain rfl : f = i := by omega
      have h1 := h.todo f f hi hF rfl (le_refl _)
      rw [if_pos ⟨by rw [h1.2]; exact hiso, h1.1⟩]
      -- the unmarked vertices with the value `agg f` are those of the aggregate
      have hcls : ∀ t, t < G.n → ((s.agg t = agg f ∧ s.mark t = false) ↔ agg t = agg f) := by
        intro t ht
        constructor
        · rintro ⟨ha, hm⟩
          by_cases hti : agg t = .iso
          · rw [(h.iso t hti).2] at ha
            exact absurd ha.symm hiso
          · obtain ⟨g, _, hG', e'⟩ := exists_first agg t hti
            rcases Nat.lt_or_ge g f with hl | hl
            · have := (h.done g t ht hG' e' hl).1
              rw [hm] at this; cases this
            · rw [(h.todo g t ht hG' e' hl).2] at ha
              exact ha
        · intro e'
          have := h.todo f t ht hF e' (le_refl _)
          exact ⟨this.2.trans e', this.1⟩
      rw [h1.2]
      obtain ⟨vis, d, sph, mark', e1, hm', hvis, hlt, hJ⟩ := bfs_spec (start := f) (m0 := s.mark) (A0 := s.agg) hG hi h1.1
        (bob_renum G s.number f (agg f) s.mark s.agg) s.agg (fun _ => rfl) ⟨by simp, by intro w; simp⟩ fuel hf
      have hvis' : ∀ t, t < G.n → (t ∈ vis ↔ agg t = agg f) := by
        intro t ht
        rw [hvis t]
        constructor
        · intro hr
          rcases Relation.ReflTransGen.cases_tail hr with hr | ⟨u, _, hs⟩
          · rw [hr]
          · exact (hcls t ht).mp hs.2
        · intro e'
          have hr := hc f t hi ht hF e'
          have : ∀ w, Relation.ReflTransGen (fun u t => t ∈ G.adj u ∧ agg t = agg f) f w →
              Relation.ReflTransGen (BStep G (agg f) s.agg s.mark) f w ∧ w < G.n := by
            intro w hw
            induction hw with
            | refl => exact ⟨.refl, hi⟩
            | tail _ hs ih =>
              have hl := hG _ ih.2 _ hs.1
              have := (hcls _ hl).mpr hs.2
              exact ⟨ih.1.tail ⟨hs.1, this⟩, hl⟩
          exact (this t hr).1
      rw [e1]
      refine ⟨_, rfl, ?_, ?_, ?_, ?_, ?_⟩
      · rw [numBelow_succ, if_pos hF, ← h.number]
      · intro v hv
        have hne : v ≠ f := fun hc => hiso (hc ▸ hv)
        have hnv : v ∉ vis := by
          intro hc
          have := (hvis' v (hlt v hc)).mp hc
          rw [hv] at this
          exact hiso this.symm
        have := h.iso v hv
        dsimp only
        refine ⟨?_, ?_⟩
        · by_contra hcon
          have := (hm' v).mp (by simpa using hcon)
          simp_all
        · rw [upd_ne _ _ hne, hJ.2 v]
          simp [hnv, this.2]
      · intro g v hv hG' e' hg
        dsimp only
        by_cases hgf : g = f
        · subst hgf
          have hin := (hvis' v hv).mpr e'
          refine ⟨(hm' v).mpr (Or.inr hin), ?_⟩
          by_cases hvf : v = g
          · subst hvf; rw [upd_same, h.number]
          · rw [upd_ne _ _ hvf, hJ.2 v]
            simp [hin, hvf, h.number]
        · have hd := h.done g v hv hG' e' (by omega)
          have hnv : v ∉ vis := by
            intro hc
            have := (hvis' v hv).mp hc
            exact hgf (first_unique hG' hF (by rw [← e', this]))
          have hne : v ≠ f := fun hc => hgf (first_unique hG' hF (by rw [← e', hc]))
          refine ⟨(hm' v).mpr (Or.inl hd.1), ?_⟩
          rw [upd_ne _ _ hne, hJ.2 v]
          simp [hnv, hd.2]
      · intro g v hv hG' e' hg
        dsimp only
        have hgf : g ≠ f := by omega
        have hd := h.todo g v hv hG' e' (by omega)
        have hnv : v ∉ vis := by
          intro hc
          have := (hvis' v hv).mp hc
          exact hgf (first_unique hG' hF (by rw [← e', this]))
        have hne : v ≠ f := fun hc => hgf (first_unique hG' hF (by rw [← e', hc]))
        refine ⟨?_, ?_⟩
        · by_contra hcon
          have := (hm' v).mp (by simpa using hcon)
          simp_all
        · rw [upd_ne _ _ hne, hJ.2 v]
          simp [hnv, hd.2]
      · intro v hv
        dsimp only
        have hd := h.out v hv
        have hnv : v ∉ vis := fun hc => by have := hlt v hc; omega
        have hne : v ≠ f := by omega
        refine ⟨?_, ?_⟩
        · by_contra hcon
          have := (hm' v).mp (by simpa using hcon)
          simp_all
        · rw [upd_ne _ _ hne, hJ.2 v]
          simp [hnv, hd.2]

theorem renum_loop (G : Graph) (hG : G.WF) (agg : Nat → Agg) (hc : ConnectedAggs G agg) (fuel : Nat) (hf : G.n + 1 ≤ fuel) :
    ∀ i, i ≤ G.n → ∃ s, (List.range i).foldlM (renumStep G fuel) ⟨agg, fun _ => false, 0⟩ = some s ∧ RInv G agg i s
  | 0, _ => by
    refine ⟨_, rfl, ?_, ?_, ?_, ?_, ?_⟩
    · simp [numBelow]
    · intro v hv; exact ⟨rfl, hv⟩
    · intro f v _ _ _ hl; omega
    · intros; exact ⟨rfl, rfl⟩
    · intros; exact ⟨rfl, rfl⟩
  | i + 1, hi => by
    obtain ⟨s, e, h⟩ := renum_loop G hG agg hc fuel hf i (by omega)
    obtain ⟨s', e', h'⟩ := renum_step G hG agg hc fuel hf i (by omega) s h
    refine ⟨s', ?_, h'⟩
    rw [List.range_succ, List.foldlM_append, e]
    simpa using e'

/-- `renumberAggregates` terminates; afterwards isolated vertices are still isolated, every other vertex of the graph carries the
number of aggregates whose first vertex precedes the first vertex of its own aggregate, and all flags are reset. -/
theorem C43_numbers (G : Graph) (hG : G.WF) (agg : Nat → Agg) (hc : ConnectedAggs G agg) (fuel : Nat) (hf : G.n + 1 ≤ fuel) :
    ∃ s, renumberAggregates G fuel agg (fun _ => false) = some s ∧ s.number = numBelow agg G.n ∧
      (∀ v < G.n, agg v = .iso → s.agg v = .iso) ∧
      (∀ f v, v < G.n → IsFirst agg f → agg v = agg f → s.agg v = .id (numBelow agg f)) ∧ ∀ v, s.mark v = false := by
  obtain ⟨s, e, h⟩ := renum_loop G hG agg hc fuel hf G.n (le_refl _)
  refine ⟨{ s with mark := (List.range G.n).foldl (fun m v => upd m v false) s.mark },
    by unfold renumberAggregates; rw [e]; rfl, h.number, fun v _ hv => (h.iso v hv).2, ?_, ?_⟩
  · intro f v hv hF ev
    have hfv : f ≤ v := by
      by_contra hcon
      exact hF.2 v (by omega) ev
    exact (h.done f v hv hF ev (by omega)).2
  · intro v
    dsimp only
    have : ∀ (l : List Nat) (m : Nat → Bool), (l.foldl (fun m v => upd m v false) m) v = if v ∈ l then false else m v := by
      intro l
      induction l with
      | nil => intro m; simp
      | cons x l ih =>
        intro m
        rw [List.foldl_cons, ih]
        by_cases hx : v = x
        · subst hx; simp
        · rw [upd_ne _ _ hx]; simp [hx]
    rw [this]
    by_cases hv : v < G.n
    · simp [hv]
    · simp [hv, (h.out v (by omega)).1]

/-- The partition is unchanged and the new numbers are exactly `0..k-1`, in the order of the first vertices. -/
theorem C43_partition (G : Graph) (hG : G.WF) (agg : Nat → Agg) (hc : ConnectedAggs G agg) (fuel : Nat) (hf : G.n + 1 ≤ fuel) :
    ∃ s, renumberAggregates G fuel agg (fun _ => false) = some s ∧
      (∀ u v, u < G.n → v < G.n → (s.agg u = s.agg v ↔ agg u = agg v)) ∧
      (∀ v < G.n, s.agg v = .iso ↔ agg v = .iso) ∧
      (∀ v < G.n, agg v ≠ .iso → ∃ r < s.number, s.agg v = .id r) ∧ (∀ r < s.number, ∃ v < G.n, s.agg v = .id r) ∧
      (∀ f g, f < G.n → g < G.n → IsFirst agg f → IsFirst agg g → f < g → ∃ p q, s.agg f = .id p ∧ s.agg g = .id q ∧ p < q) := by
  obtain ⟨s, e, hk, hiso, hnum, _⟩ := C43_numbers G hG agg hc fuel hf
  have hnum' : ∀ v < G.n, agg v ≠ .iso → ∃ f, f ≤ v ∧ IsFirst agg f ∧ agg v = agg f ∧ s.agg v = .id (numBelow agg f) := by
    intro v hv hi
    obtain ⟨f, h1, h2, h3⟩ := exists_first agg v hi
    exact ⟨f, h1, h2, h3, hnum f v hv h2 h3⟩
  refine ⟨s, e, ?_, ?_, ?_, ?_, ?_⟩
  · intro u v hu hv
    by_cases h1 : agg u = .iso
    · by_cases h2 : agg v = .iso
      · simp [hiso u hu h1, hiso v hv h2, h1, h2]
      · obtain ⟨f, _, _, _, e2⟩ := hnum' v hv h2
        rw [hiso u hu h1, e2, h1]
        exact ⟨fun hc => by simp at hc, fun hc => absurd hc.symm h2⟩
    · obtain ⟨f, _, hF, ef, e1⟩ := hnum' u hu h1
      by_cases h2 : agg v = .iso
      · rw [hiso v hv h2, e1, h2]
        exact ⟨fun hc => by simp at hc, fun hc => absurd hc h1⟩
      · obtain ⟨g, _, hG', eg, e2⟩ := hnum' v hv h2
        rw [e1, e2, ef, eg]
        constructor
        · intro hh
          simp only [Agg.id.injEq] at hh
          rcases Nat.lt_trichotomy f g with hl | hl | hl
          · have := numBelow_lt agg hF hl; omega
          · rw [hl]
          · have := numBelow_lt agg hG' hl; omega
        · intro hh
          rw [first_unique hF hG' hh]
  · intro v hv
    refine ⟨?_, hiso v hv⟩
    intro h
    by_contra hcon
    obtain ⟨f, _, _, _, e2⟩ := hnum' v hv hcon
    rw [h] at e2
    cases e2
  · intro v hv hi
    obtain ⟨f, hfv, hF, _, e2⟩ := hnum' v hv hi
    exact ⟨_, by rw [hk]; exact numBelow_lt agg hF (by omega), e2⟩
  · rw [hk]
    have : ∀ n r, r < numBelow agg n → ∃ f < n, IsFirst agg f ∧ numBelow agg f = r := by
      intro n
      induction n with
      | zero => intro r hr; simp [numBelow] at hr
      | succ n ih =>
        intro r hr
        rw [numBelow_succ] at hr
        by_cases hn : IsFirst agg n
        · rw [if_pos hn] at hr
          by_cases hrn : r = numBelow agg n
          · exact ⟨n, by omega, hn, hrn.symm⟩
          · obtain ⟨f, h1, h2, h3⟩ := ih r (by omega)
            exact ⟨f, by omega, h2, h3⟩
        · rw [if_neg hn] at hr
          obtain ⟨f, h1, h2, h3⟩ := ih r (by omega)
          exact ⟨f, by omega, h2, h3⟩
    intro r hr
    obtain ⟨f, hf', hF, er⟩ := this G.n r hr
    exact ⟨f, hf', by rw [hnum f f hf' hF rfl, er]⟩
  · intro f g hf' hg hF hG' hlt
    exact ⟨_, _, hnum f f hf' hF rfl, hnum g g hg hG' rfl, numBelow_lt agg hF hlt⟩

/-- Without connectedness the claim fails: on two vertices without edges, one aggregate is split into two. -/
theorem C43_disconnected_counterexample :
    ∃ s, renumberAggregates ⟨2, fun _ => []⟩ 3 (fun _ => .id 5) (fun _ => false) = some s ∧ s.agg 0 ≠ s.agg 1 := by
  exact ⟨_, rfl, by decide⟩

/-- The path 0-1-2-3-4. -/
def demoPath : Graph := ⟨5, fun u => match u with | 0 => [1] | 1 => [0, 2] | 2 => [1, 3] | 3 => [2, 4] | 4 => [3] | _ => []⟩

/-- Aggregates {0,1} (number 7) and {3,4} (number 0); 2 is isolated. -/
def demoAgg : Nat → Agg := fun v => match v with | 0 => .id 7 | 1 => .id 7 | 2 => .iso | _ => .id 0

theorem demoPath_wf : demoPath.WF := by
  intro u hu t ht
  change u < 5 at hu
  change t < 5
  interval_cases u <;> simp [demoPath] at ht <;> omega

theorem demoAgg_connected : ConnectedAggs demoPath demoAgg := by
  intro f v hf hv hF e
  change f < 5 at hf
  change v < 5 at hv
  interval_cases f <;> interval_cases v <;>
    first
    | exact .refl
    | exact .single ⟨by simp [demoPath], rfl⟩
    | (exfalso; revert hF e; decide)

/-- Non-vacuity: the hypotheses hold of the path, and the result of the run. -/
example : demoPath.WF ∧ ConnectedAggs demoPath demoAgg ∧
    ((renumberAggregates demoPath 6 demoAgg (fun _ => false)).map fun s => (s.number, (List.range 5).map s.agg)) =
      some (2, [.id 0, .id 0, .iso, .id 1, .id 1]) :=
  ⟨demoPath_wf, demoAgg_connected, by decide +kernel⟩

end Amg
end Istl
