import Verif.Lemmas.ParCoarsen5
import Mathlib.Tactic.IntervalCases

/-! # C72 — coarsening on several processes gives a distribution of the coarse unknowns that all processes agree on -/

namespace Istl
namespace Amg
open Par

/-- **One process**: the vertices it owns keep their aggregates, the aggregates get the numbers `0, 1, …` in the order of their first
vertices, isolated vertices stay isolated, the vertices of other processes and the flags are left as they were. An aggregate is
entered into the coarse index set iff one of its vertices is in the fine one; it is entered once, under its number, with the global
index of one of its vertices, as owner, and as public iff one of its vertices is public. -/
theorem C72_local (G : Graph) (hG : G.WF) {A : PIS} (hA : PisOk A) (hb : ∀ e ∈ A, e.loc < G.n) (pub : Nat → Bool) (agg : Nat → Agg)
    (hc : OwnConnected G A agg) (fuel : Nat) (hf : G.n + 1 ≤ fuel) :
    ∃ s, buildCoarse G A pub fuel agg = some (.ok s) ∧ (∀ v, s.mark v = false) ∧
      (∀ v, Foreign A v → s.agg v = agg v) ∧
      (∀ v, v < G.n → ¬ Foreign A v → if agg v = .iso then s.agg v = .iso else ∃ a, a < s.number ∧ s.agg v = .id a) ∧
      (∀ a, a < s.number → ∃ v, v < G.n ∧ ¬ Foreign A v ∧ s.agg v = .id a) ∧
      Numbered G (ownMap A s.agg) ∧ s.number = numBelow (ownMap A s.agg) G.n ∧
      (∀ u v, u < G.n → v < G.n → ¬ Foreign A u → ¬ Foreign A v → (s.agg u = s.agg v ↔ agg u = agg v)) ∧
      PisOk s.indices ∧
      (∀ x ∈ s.added, x.1.attr = .owner ∧ x.1.loc < s.number ∧ (∃ e ∈ A, ¬ Foreign A e.loc ∧ s.agg e.loc = .id x.1.loc ∧ e.g = x.1.g) ∧
        (x.2 = true ↔ ∃ e ∈ A, ¬ Foreign A e.loc ∧ s.agg e.loc = .id x.1.loc ∧ pub e.loc = true)) ∧
      (∀ e ∈ A, ¬ Foreign A e.loc → ∀ a, s.agg e.loc = .id a → ∃ x ∈ s.added, x.1.loc = a) := by
  obtain ⟨s, e1, h⟩ := buildCoarse_spec G hG hA hb pub agg hc fuel hf
  have hown : ∀ v, ¬ Foreign A v → ownMap A agg v = agg v := fun v hv => by unfold ownMap; rw [if_neg hv]
  have hid : ∀ v, v < G.n → ¬ Foreign A v → agg v ≠ .iso → ∃ f, f < G.n ∧ IsFirst (ownMap A agg) f ∧ ownMap A agg v = ownMap A agg f ∧
      s.agg v = .id (numBelow (ownMap A agg) f) := by
    intro v hv hF hi
    obtain ⟨f, hle, hFf, e'⟩ := exists_first (ownMap A agg) v (by rw [hown v hF]; exact hi)
    exact ⟨f, by omega, hFf, e', h.ids f v hv hFf e'⟩
  have hinj : ∀ f g, IsFirst (ownMap A agg) f → IsFirst (ownMap A agg) g → numBelow (ownMap A agg) f = numBelow (ownMap A agg) g → f = g := by
    intro f g hFf hFg hn
    rcases Nat.lt_trichotomy f g with hl | hl | hl
    · have := numBelow_lt _ hFf hl; omega
    · exact hl
    · have := numBelow_lt _ hFg hl; omega
  have hclass : ∀ e ∈ A, ∀ f, IsFirst (ownMap A agg) f →
      (ownMap A agg e.loc = ownMap A agg f ↔ ¬ Foreign A e.loc ∧ s.agg e.loc = .id (numBelow (ownMap A agg) f)) := by
    intro e he f hFf
    constructor
    · intro hm
      obtain ⟨hnF, -⟩ := ownMap_ne (agg := agg) (A := A) (v := e.loc) (by rw [hm]; exact hFf.1)
      exact ⟨hnF, h.ids f e.loc (hb e he) hFf hm⟩
    · rintro ⟨hnF, hs⟩
      have hi : agg e.loc ≠ .iso := by
        intro hc'
        rw [h.iso _ hnF hc'] at hs; cases hs
      obtain ⟨g, -, hFg, hm, hs'⟩ := hid e.loc (hb e he) hnF hi
      rw [hs] at hs'
      injection hs' with hs'
      rw [hm, hinj f g hFf hFg hs']
  refine ⟨s, e1, h.marks, h.ext, ?_, ?_, h.numbered.1, h.numbered.2, ?_, h.pisOk hA hb, ?_, ?_⟩
  · intro v hv hF
    split
    · rename_i hi; exact h.iso v hF hi
    · rename_i hi
      obtain ⟨f, hf', hFf, -, hs⟩ := hid v hv hF hi
      exact ⟨_, by rw [h.number]; exact numBelow_lt _ hFf hf', hs⟩
  · intro a ha
    rw [h.number] at ha
    obtain ⟨f, hf', hFf, hk⟩ := numBelow_surj _ _ _ ha
    exact ⟨f, hf', (ownMap_ne hFf.1).1, by rw [h.ids f f hf' hFf rfl, hk]⟩
  · intro u v hu hv hFu hFv
    by_cases hiu : agg u = .iso <;> by_cases hiv : agg v = .iso
    · rw [h.iso u hFu hiu, h.iso v hFv hiv, hiu, hiv]
    · obtain ⟨f, -, -, -, hs⟩ := hid v hv hFv hiv
      rw [h.iso u hFu hiu, hs, hiu]
      exact ⟨fun hc => by (cases hc), fun hc => absurd hc.symm hiv⟩
    · obtain ⟨f, -, -, -, hs⟩ := hid u hu hFu hiu
      rw [h.iso v hFv hiv, hs, hiv]
      exact ⟨fun hc => by (cases hc), fun hc => absurd hc hiu⟩
    · obtain ⟨f, -, hFf, hm, hs⟩ := hid u hu hFu hiu
      obtain ⟨g, -, hFg, hm', hs'⟩ := hid v hv hFv hiv
      rw [hs, hs', ← hown u hFu, ← hown v hFv, hm, hm']
      constructor
      · intro hc
        injection hc with hc
        rw [hinj f g hFf hFg hc]
      · intro hc
        rw [first_unique hFf hFg hc]
  · intro x hx
    obtain ⟨ha, hl, -⟩ := h.entry' hA hb (Local.mem_indices.mpr ⟨x.2, hx⟩)
    obtain ⟨f, hf', hFf, hxl, ⟨e, he, hm, hg, -⟩, hp⟩ := h.entry x hx
    refine ⟨ha, hl, ⟨e, he, ?_⟩, ?_⟩
    · have := (hclass e he f hFf).mp hm
      exact ⟨this.1, by rw [hxl]; exact this.2, hg.symm⟩
    · rw [hp]
      constructor
      · rintro ⟨e', he', hm', hpb⟩
        have := (hclass e' he' f hFf).mp hm'
        exact ⟨e', he', this.1, by rw [hxl]; exact this.2, hpb⟩
      · rintro ⟨e', he', h1, h2, hpb⟩
        exact ⟨e', he', (hclass e' he' f hFf).mpr ⟨h1, by rw [← hxl]; exact h2⟩, hpb⟩
  · intro e he hnF a hs
    have hi : agg e.loc ≠ .iso := by
      intro hc'
      rw [h.iso _ hnF hc'] at hs; cases hs
    obtain ⟨f, hf', hFf, hm, hs'⟩ := hid e.loc (hb e he) hnF hi
    rw [hs] at hs'
    injection hs' with hs'
    obtain ⟨x, hx, hxl⟩ := h.there f hf' hFf ⟨e, he, hm⟩
    exact ⟨x, hx, by rw [hxl, hs']⟩

/-- **All processes**: however the vertices are distributed, whatever aggregates the processes have built of their own vertices, and in
whatever order messages arrive: coarsening the index sets, synchronising them and publishing the aggregates succeeds on every process;
there is one map `F` from global fine to global coarse indices such that the new index sets are a `Coarsening` along `F` (again each
index has exactly one owner, …) and the aggregates map of every process assigns each fine index it knows to its coarse index. The
vertices of the process keep the numbers it gave them (also those outside the index set); in the new index sets the numbers of the owned
indices are those below the number of its own aggregates, and all numbers above are used. -/
theorem C72_consistent (P : Nat) (pis : Nat → PIS) (G : Nat → Graph) (pub : Nat → Nat → Bool) (agg : Nat → Nat → Agg) (fuel : Nat → Nat)
    (hS : Shared P pis fun p => (G p).n) (hG : ∀ p, p < P → (G p).WF) (hc : ∀ p, p < P → OwnConnected (G p) (pis p) (agg p))
    (hf : ∀ p, p < P → (G p).n + 1 ≤ fuel p) (order order' : Nat → List Nat)
    (hord : ∀ q, q < P → (order q).Perm ((List.range P).filter (· ≠ q)))
    (hord' : ∀ q, q < P → (order' q).Perm ((List.range P).filter (· ≠ q))) :
    ∃ (s : Nat → CoSt) (R : Nat → Nat → List (Idx × Attr)) (C : Nat → PIS) (N : Nat → Nat) (F : Nat → Option Nat) (agg' : Nat → Nat → Agg),
      (∀ p, p < P → buildCoarse (G p) (pis p) (pub p) (fuel p) (agg p) = some (.ok (s p))) ∧
      (∀ p q, p < P → q < P → p ≠ q →
        coarseRemote (s p).number (s p).agg (remoteList (pis p) (pis q)) (s p).indices = .ok (R p q)) ∧
      (∀ q, q < P → sync (s q).indices (s q).number ((order q).map fun p => R p q) = (C q, N q)) ∧
      (∀ q, q < P → publishOwner pis C (fun p => (s p).agg) q (order' q) = .ok (agg' q)) ∧
      Coarsening P pis (fun p => (G p).n) agg C N F ∧ Published P pis C F agg' ∧
      (∀ p, p < P → ∀ v, ¬ Foreign (pis p) v → agg' p v = (s p).agg v) ∧
      (∀ p, p < P → (s p).number ≤ N p ∧ (∀ c ∈ C p, (c.attr = .owner ↔ c.loc < (s p).number)) ∧
        ∀ l, (s p).number ≤ l → l < N p → ∃ c ∈ C p, c.loc = l) := by
  have h1 : ∀ p, ∃ s, p < P → buildCoarse (G p) (pis p) (pub p) (fuel p) (agg p) = some (.ok s) ∧
      Local (G p) (pis p) (pub p) (agg p) s := by
    intro p
    by_cases hp : p < P
    · obtain ⟨s, h⟩ := buildCoarse_spec (G p) (hG p hp) (hS.ok p hp) (hS.bounded p hp) (pub p) (agg p) (hc p hp) (fuel p) (hf p hp)
      exact ⟨s, fun _ => h⟩
    · exact ⟨⟨fun _ => .iso, fun _ => false, 0, none, []⟩, fun h => absurd h hp⟩
  choose s hs using h1
  have h2 : ∀ p q, ∃ l, p < P → q < P → coarseRemote (s p).number (s p).agg (remoteList (pis p) (pis q)) (s p).indices = .ok l := by
    intro p q
    by_cases hpq : p < P ∧ q < P
    · obtain ⟨hp, hq⟩ := hpq
      have hL := (hs p hp).2
      obtain ⟨l, hl, -⟩ := coarseRemote_spec (s p).number (s p).agg (remoteList (pis p) (pis q)) (s p).indices (by
        intro x hx ho hi
        have hxp := ((mem_remoteList (hS.ok q hq)).mp hx).1
        obtain ⟨c, hc', hid⟩ := hL.exists_entry (hS.ok p hp) (hS.bounded p hp) hxp ho
          fun h => hi ((hL.isoIff (hS.ok p hp) (hS.bounded p hp) hxp ho).mpr h)
        exact ⟨c.loc, (hL.entry' (hS.ok p hp) (hS.bounded p hp) hc').2.1, hid⟩)
        fun c hc' => (hL.entry' (hS.ok p hp) (hS.bounded p hp) hc').2.1
      exact ⟨l, fun _ _ => hl⟩
    · exact ⟨[], fun hp hq => absurd ⟨hp, hq⟩ hpq⟩
  choose R hR using h2
  have r : Run P pis G pub agg s R order (fun q => (sync (s q).indices (s q).number ((order q).map fun p => R p q)).1)
      (fun q => (sync (s q).indices (s q).number ((order q).map fun p => R p q)).2) :=
    ⟨hS, fun p hp => (hs p hp).2, fun p q hp hq _ => hR p q hp hq, hord, fun q _ => rfl⟩
  have hK := r.coarsening
  have hlt : ∀ q, q < P → ∀ p ∈ order' q, p < P ∧ p ≠ q := by
    intro q hq p hp
    have := (hord' q hq).mem_iff.mp hp
    rw [List.mem_filter, List.mem_range] at this
    exact ⟨this.1, by simpa using this.2⟩
  have hown : ∀ p, p < P → ∀ e ∈ pis p, e.attr = .owner →
      Right ((sync (s p).indices (s p).number ((order p).map fun q => R q p)).1) (coarseOf P pis s e.g) ((s p).agg e.loc) := by
    intro p hp e he ho
    by_cases hi : agg p e.loc = .iso
    · rw [(r.isoF hp he ho).mpr hi]
      exact ((r.loc p hp).isoIff (hS.ok p hp) (hS.bounded p hp) he ho).mpr hi
    · obtain ⟨c, hc', hid, hF⟩ := r.ownedF hp he ho hi
      rw [hF]
      exact ⟨c, r.sub0 hp hc', rfl, hid⟩
  have h3 : ∀ q, ∃ a, q < P → publishOwner pis (fun q => (sync (s q).indices (s q).number ((order q).map fun p => R p q)).1)
      (fun p => (s p).agg) q (order' q) = .ok a ∧
      (∀ e ∈ pis q, Right ((sync (s q).indices (s q).number ((order q).map fun p => R p q)).1) (coarseOf P pis s e.g) (a e.loc)) ∧
      (∀ v, (∀ e ∈ pis q, e.loc ≠ v) → a v = (s q).agg v) := by
    intro q
    by_cases hq : q < P
    · obtain ⟨a, e1, h4, h5⟩ := forward_right (src := isOwner) (dst := isAll) (F := coarseOf P pis s) hS.ok hK.shared.ok
        (fun p hp e he i hi => by obtain ⟨c, h, h', -⟩ := hK.known p hp e he i hi; exact ⟨c, h, h'⟩) (fun p => (s p).agg)
        (fun p hp e he ho => hown p hp e he (by simpa [isOwner] using ho)) hq (order' q) (fun p hp => (hlt q hq p hp).1)
      refine ⟨a, fun _ => ⟨e1, ?_, h5⟩⟩
      intro e he
      apply h4 e he
      by_cases ho : e.attr = .owner
      · exact Or.inl (hown q hq e he ho)
      · right
        refine ⟨rfl, ?_⟩
        obtain ⟨p, hp, f, hf', hfg, hfo⟩ := hS.owned q hq e he
        refine ⟨p, (hord' q hq).mem_iff.mpr ?_, f, hf', hfg, by simp [isOwner, hfo]⟩
        rw [List.mem_filter, List.mem_range]
        refine ⟨hp, ?_⟩
        have : p ≠ q := by
          rintro rfl
          rw [entry_unique (hS.ok p hp) hf' he hfg] at hfo
          exact ho hfo
        simpa using this
    · exact ⟨fun _ => .iso, fun h => absurd h hq⟩
  choose agg' h3 using h3
  refine ⟨s, R, _, _, coarseOf P pis s, agg', fun p hp => (hs p hp).1, fun p q hp hq _ => hR p q hp hq, fun q _ => rfl,
    fun q hq => (h3 q hq).1, hK, ?_, ?_, fun q hq => r.numbers hq⟩
  · intro p hp e he
    exact (h3 p hp).2.1 e he
  · intro p hp v hv
    by_cases hin : ∃ e ∈ pis p, e.loc = v
    · obtain ⟨e, he, rfl⟩ := hin
      have ho : e.attr = .owner := by
        by_contra hc'
        exact hv ⟨e, he, rfl, hc'⟩
      exact right_unique (hK.shared.ok p hp) ((h3 p hp).2.1 e he) (hown p hp e he ho)
    · exact (h3 p hp).2.2 v fun e he hl => hin ⟨e, he, hl⟩

/-- **The second round of messages** (category `nonoverlapping`) changes nothing of this: once all processes agree, sending from the
copies succeeds and they still agree. -/
theorem C72_nonoverlapping {P : Nat} {pis : Nat → PIS} {n : Nat → Nat} {agg : Nat → Nat → Agg} {C : Nat → PIS} {N : Nat → Nat}
    {F : Nat → Option Nat} (hS : Shared P pis n) (hK : Coarsening P pis n agg C N F) (agg1 : Nat → Nat → Agg)
    (hp : Published P pis C F agg1) (order : Nat → List Nat) (hord : ∀ q, q < P → (order q).Perm ((List.range P).filter (· ≠ q))) :
    ∃ agg2, (∀ q, q < P → publishCopy pis C agg1 q (order q) = .ok (agg2 q)) ∧
      (∀ q, q < P → ∀ v, agg2 q v = agg1 q v) ∧ Published P pis C F agg2 := by
  have h : ∀ q, ∃ a, q < P → publishCopy pis C agg1 q (order q) = .ok a ∧ ∀ v, a v = agg1 q v := by
    intro q
    by_cases hq : q < P
    · obtain ⟨a, e1, h4, h5⟩ := forward_right (src := isCopy) (dst := isAll) (F := F) hS.ok hK.shared.ok
        (fun p hp e he i hi => by obtain ⟨c, h, h', -⟩ := hK.known p hp e he i hi; exact ⟨c, h, h'⟩) agg1
        (fun p hp' e he _ => hp p hp' e he) hq (order q) (fun p hp' => by
          have := (hord q hq).mem_iff.mp hp'
          rw [List.mem_filter, List.mem_range] at this
          exact this.1)
      refine ⟨a, fun _ => ⟨e1, ?_⟩⟩
      intro v
      by_cases hv : ∃ e ∈ pis q, e.loc = v
      · obtain ⟨e, he, rfl⟩ := hv
        exact right_unique (hK.shared.ok q hq) (h4 e he (Or.inl (hp q hq e he))) (hp q hq e he)
      · exact h5 v fun e he hl => hv ⟨e, he, hl⟩
    · exact ⟨fun _ => .iso, fun h => absurd h hq⟩
  choose agg2 h using h
  refine ⟨agg2, fun q hq => (h q hq).1, fun q hq => (h q hq).2, ?_⟩
  intro q hq e he
  rw [(h q hq).2 e.loc]
  exact hp q hq e he

/-! ## A concrete case -/

/-- The path 0-1-2-3 of global indices on two processes: the first owns 0 and 1 and has an overlap vertex 2, the second owns 2 and 3 and
has a copy of 1. -/
def pcPis : Nat → PIS
  | 0 => [⟨0, 0, .owner⟩, ⟨1, 1, .owner⟩, ⟨2, 2, .overlap⟩]
  | _ => [⟨1, 2, .copy⟩, ⟨2, 0, .owner⟩, ⟨3, 1, .owner⟩]

def pcGraph : Nat → Graph
  | 0 => ⟨3, fun u => match u with | 0 => [1] | 1 => [0, 2] | 2 => [1] | _ => []⟩
  | _ => ⟨3, fun u => match u with | 0 => [1, 2] | 1 => [0] | 2 => [0] | _ => []⟩

def pcAgg : Nat → Nat → Agg
  | 0 => fun v => match v with | 0 => .id 4 | 1 => .id 4 | _ => .unagg
  | _ => fun v => match v with | 0 => .id 0 | 1 => .iso | _ => .unagg

theorem pc_shared : Shared 2 pcPis fun p => (pcGraph p).n where
  ok p hp := by interval_cases p <;> exact ⟨by decide, by decide⟩
  bounded p hp := by interval_cases p <;> decide
  owned p hp := by
    have h : ∀ p < 2, ∀ e ∈ pcPis p, ∃ q, q < 2 ∧ ∃ f ∈ pcPis q, f.g = e.g ∧ f.attr = .owner := by decide
    exact h p hp
  unique p q hp hq := by interval_cases p <;> interval_cases q <;> decide

theorem pc_wf : ∀ p, p < 2 → (pcGraph p).WF := by
  intro p hp u hu t ht
  interval_cases p
  · change u < 3 at hu
    change t < 3
    interval_cases u <;> simp [pcGraph] at ht <;> omega
  · change u < 3 at hu
    change t < 3
    interval_cases u <;> simp [pcGraph] at ht <;> omega

theorem pc_connected : ∀ p, p < 2 → OwnConnected (pcGraph p) (pcPis p) (pcAgg p) := by
  intro p hp f v hf hv hF e
  interval_cases p
  · change f < 3 at hf
    change v < 3 at hv
    interval_cases f <;> interval_cases v <;>
      first
      | (exfalso; revert hF e; decide)
      | exact .refl
      | exact .single ⟨by decide, by decide⟩
  · change f < 3 at hf
    change v < 3 at hv
    interval_cases f <;> interval_cases v <;>
      first
      | (exfalso; revert hF e; decide)
      | exact .refl
      | exact .single ⟨by decide, by decide⟩

/-- Non-vacuity of `C72_consistent`: all its hypotheses hold of this distribution. The first process then knows two coarse indices, its
own (number 0, global index 1) and that of the other process (number 1, global index 2), and has put its overlap vertex there. -/
example : (∃ (C : Nat → PIS) (N : Nat → Nat) (F : Nat → Option Nat) (agg' : Nat → Nat → Agg),
      Coarsening 2 pcPis (fun p => (pcGraph p).n) pcAgg C N F ∧ Published 2 pcPis C F agg') ∧
    (buildCoarse (pcGraph 0) (pcPis 0) (fun _ => true) 9 (pcAgg 0)).map (fun r => r.bind fun s =>
      Res.ok (s.number, (List.range 3).map s.agg, s.added)) = some (Res.ok (1, [.id 0, .id 0, .unagg], [(⟨1, 0, .owner⟩, true)])) ∧
    coarseRemote 1 (fun v => match v with | 0 => .id 0 | 1 => .iso | _ => .unagg) (remoteList (pcPis 1) (pcPis 0)) [⟨2, 0, .owner⟩] =
      .ok [(⟨2, 0, .owner⟩, .overlap)] ∧
    sync [⟨1, 0, .owner⟩] 1 [[(⟨2, 0, .owner⟩, .overlap)]] = ([⟨1, 0, .owner⟩, ⟨2, 1, .overlap⟩], 2) := by
  obtain ⟨s, R, C, N, F, agg', -, -, -, -, hK, hP, -, -⟩ := C72_consistent 2 pcPis pcGraph (fun _ _ => true) pcAgg (fun _ => 9) pc_shared pc_wf
    pc_connected (fun p hp => by interval_cases p <;> decide) (fun q => if q = 0 then [1] else [0]) (fun q => if q = 0 then [1] else [0])
    (fun q hq => by interval_cases q <;> decide) (fun q hq => by interval_cases q <;> decide)
  exact ⟨⟨C, N, F, agg', hK, hP⟩, by decide +kernel, by decide +kernel, by decide +kernel⟩

/-- The code promises the minimum of the global indices of the aggregate; it takes the last one visited: here 5, not 3. -/
theorem C72_minimum_counterexample :
    (buildCoarse ⟨2, fun u => match u with | 0 => [1] | 1 => [0] | _ => []⟩ [⟨3, 0, .owner⟩, ⟨5, 1, .owner⟩] (fun _ => false) 3
      (fun _ => .id 0)).map (fun r => r.bind fun s => Res.ok (s.added.map Prod.fst)) = some (Res.ok [⟨5, 0, .owner⟩]) := by
  decide +kernel

/-! ## Periodic boundaries -/

theorem foldl_max_le (L : List Nat) (m x : Nat) (h : x ∈ L ∨ x ≤ m) : x ≤ L.foldl max m := by
  induction L generalizing m with
  | nil => simpa using h
  | cons a L ih =>
    rw [List.foldl_cons]
    apply ih
    rcases h with h | h
    · rcases List.mem_cons.mp h with rfl | h
      · exact Or.inr (le_max_right _ _)
      · exact Or.inl h
    · exact Or.inr (le_trans h (le_max_left _ _))

theorem lookup_zip (ks vs : List Nat) (hl : ks.length = vs.length) (i : Nat) (hi : i < ks.length) (hn : ks.Nodup) :
    (ks.zip vs).lookup ks[i] = some (vs[i]'(by omega)) := by
  induction ks generalizing vs i with
  | nil => simp at hi
  | cons k ks ih =>
    cases vs with
    | nil => simp at hl
    | cons v vs =>
      rw [List.zip_cons_cons]
      cases i with
      | zero => simp [List.lookup_cons]
      | succ i =>
        rw [List.nodup_cons] at hn
        have hne : ks[i]'(by simpa using hi) ≠ k := fun hc => hn.1 (hc ▸ List.getElem_mem _)
        rw [List.lookup_cons]
        simp only [List.getElem_cons_succ]
        rw [beq_eq_false_iff_ne.mpr hne]
        exact ih vs (by simpa using hl) i (by simpa using hi) hn.2

/-- **Periodic boundaries**: if no vertex is isolated (and the numbers do not overflow), the aggregates of the given vertices get new
numbers, larger than all before; two of these vertices share a new number iff they shared the old one; all other vertices keep theirs. -/
theorem C72_periodic (agg verts : List Nat) (hv : ∀ v ∈ verts, v < agg.length) (hn : verts.Nodup)
    (hsmall : ∀ a ∈ agg, a + agg.length < isoNum) :
    ∃ agg', renumberOwn agg verts = .ok agg' ∧ agg'.length = agg.length ∧
      (∀ v : Nat, v ∉ verts → agg'[v]? = agg[v]?) ∧
      (∀ u ∈ verts, ∀ v ∈ verts, (agg'[u]? = agg'[v]? ↔ agg[u]? = agg[v]?)) ∧
      (∀ v ∈ verts, ∀ a, agg'[v]? = some a → a < isoNum ∧ ∀ b ∈ agg, b < a) := by
  set key : Nat → Nat := fun v => agg.getD v 0 with hkey
  have hkeyv : ∀ v ∈ verts, agg[v]? = some (key v) := by
    intro v hm
    have := hv v hm
    simp [hkey, List.getD, List.getElem?_eq_getElem this]
  set ks := (verts.map key).dedup.insertionSort (· ≤ ·) with hks
  set mx := agg.foldl max 0 with hmx
  set vs := (List.range ks.length).map (fun i => (mx + 1 + i) % vtop) with hvs
  have hksn : ks.Nodup := ((List.perm_insertionSort _ _).nodup_iff).mpr (List.nodup_dedup _)
  have hkm : ∀ v ∈ verts, key v ∈ ks := by
    intro v hm
    rw [hks, List.mem_insertionSort, List.mem_dedup]
    exact List.mem_map.mpr ⟨v, hm, rfl⟩
  have hkl : ks.length ≤ agg.length := by
    have h1 : ks.length ≤ verts.length := by
      rw [hks, List.length_insertionSort]
      exact le_trans (List.Sublist.length_le (List.dedup_sublist _)) (by simp)
    have h2 : verts.length ≤ agg.length := by
      have : verts.Subperm (List.range agg.length) := (List.subperm_of_subset hn fun v hm => List.mem_range.mpr (hv v hm))
      simpa using this.length_le
    omega
  have hmxlt : verts ≠ [] → mx + agg.length < isoNum := by
    intro hne
    obtain ⟨v, hm⟩ := List.exists_mem_of_ne_nil _ hne
    have hlt := hv v hm
    have hin : mx ∈ agg := by
      have : ∀ (L : List Nat) (m : Nat), L.foldl max m = m ∨ L.foldl max m ∈ L := by
        intro L
        induction L with
        | nil => intro m; simp
        | cons a L ih =>
          intro m
          rw [List.foldl_cons]
          rcases ih (max m a) with h | h
          · rw [h]
            rcases le_total m a with h' | h'
            · right; rw [max_eq_right h']; simp
            · left; rw [max_eq_left h']
          · exact Or.inr (List.mem_cons_of_mem _ h)
      rcases this agg 0 with h | h
      · have : agg[v] = 0 := by
          have h3 := foldl_max_le agg 0 agg[v] (Or.inl (List.getElem_mem _))
          rw [h] at h3; omega
        rw [hmx, h, ← this]
        exact List.getElem_mem _
      · rw [hmx]; exact h
    exact hsmall mx hin
  -- the new number of an old one
  have hval : ∀ v ∈ verts, ∃ i, i < ks.length ∧ ks[i]? = some (key v) ∧ mapGet (ks.zip vs) (key v) = mx + 1 + i := by
    intro v hm
    obtain ⟨i, hi, hik⟩ := List.getElem_of_mem (hkm v hm)
    refine ⟨i, hi, by rw [List.getElem?_eq_getElem hi, hik], ?_⟩
    unfold mapGet
    rw [← hik, lookup_zip ks vs (by simp [hvs]) i hi hksn]
    dsimp only
    simp only [hvs, List.getElem_map, List.getElem_range]
    have := hmxlt (List.ne_nil_of_mem hm)
    unfold isoNum at this
    exact Nat.mod_eq_of_lt (by omega)
  have hloop : ∀ (W : List Nat), W.Nodup → (∀ v ∈ W, v ∈ verts) → ∀ L : List Nat, L.length = agg.length → (∀ v ∈ W, L[v]? = agg[v]?) →
      ∃ L', W.foldlM (fun agg v => do
        let a ← rd agg v
        wr agg v (mapGet (ks.zip vs) a)) L = (.ok L' : Res (List Nat)) ∧ L'.length = agg.length ∧
        ∀ v : Nat, L'[v]? = if v ∈ W then some (mapGet (ks.zip vs) (key v)) else L[v]? := by
    intro W
    induction W with
    | nil => intro _ _ L hL _; exact ⟨L, rfl, hL, by simp⟩
    | cons w W ih =>
      intro hW hsub L hL heq
      rw [List.nodup_cons] at hW
      have hwv := hsub w (List.mem_cons_self ..)
      have hw : w < L.length := by rw [hL]; exact hv w hwv
      rw [List.foldlM_cons, rd_lt hw]
      simp only [Res.ok_bind]
      have hLw : L[w] = key w := by
        have := heq w (List.mem_cons_self ..)
        rw [List.getElem?_eq_getElem hw, hkeyv w hwv] at this
        exact Option.some.inj this
      rw [hLw, wr_lt _ hw]
      simp only [Res.ok_bind]
      obtain ⟨L', e1, h1, h2⟩ := ih hW.2 (fun v hm => hsub v (List.mem_cons_of_mem _ hm)) (L.set w (mapGet (ks.zip vs) (key w)))
        (by rw [List.length_set]; exact hL) (by
          intro v hm
          have : w ≠ v := fun hc => hW.1 (hc ▸ hm)
          rw [List.getElem?_set_ne this]
          exact heq v (List.mem_cons_of_mem _ hm))
      refine ⟨L', e1, h1, ?_⟩
      intro v
      rw [h2 v]
      by_cases hvw : v = w
      · subst hvw
        rw [if_neg hW.1, if_pos (List.mem_cons_self ..), List.getElem?_set_self hw]
      · by_cases hvW : v ∈ W
        · rw [if_pos hvW, if_pos (List.mem_cons_of_mem _ hvW)]
        · rw [if_neg hvW, if_neg (by simp [hvw, hvW]), List.getElem?_set_ne (fun hc => hvw hc.symm)]
  obtain ⟨agg', e1, h1, h2⟩ := hloop verts hn (fun v hm => hm) agg rfl (fun v _ => rfl)
  refine ⟨agg', ?_, h1, fun v hm => by rw [h2 v, if_neg hm], ?_, ?_⟩
  · unfold renumberOwn newMapping
    rw [mapM_ok verts (fun v => rd agg v) key (fun v hm => by
      have := hkeyv v hm
      rw [List.getElem?_eq_getElem (hv v hm)] at this
      rw [rd_lt (hv v hm), Option.some.inj this])]
    simp only [Res.ok_bind]
    exact e1
  · intro u hu v hw
    rw [h2 u, h2 v, if_pos hu, if_pos hw, hkeyv u hu, hkeyv v hw]
    obtain ⟨i, hi, hik, hi'⟩ := hval u hu
    obtain ⟨j, hj, hjk, hj'⟩ := hval v hw
    rw [hi', hj']
    constructor
    · intro hc
      have : i = j := by
        have := Option.some.inj hc
        omega
      rw [this, hjk] at hik
      rw [hik]
    · intro hc
      rw [← hik, ← hjk, List.getElem?_eq_getElem hi, List.getElem?_eq_getElem hj] at hc
      have := (List.Nodup.getElem_inj_iff hksn).mp (Option.some.inj hc)
      rw [this]
  · intro v hm a ha
    rw [h2 v, if_pos hm] at ha
    obtain ⟨i, hi, hik, hi'⟩ := hval v hm
    rw [hi'] at ha
    have ha' := Option.some.inj ha
    have := hmxlt (List.ne_nil_of_mem hm)
    refine ⟨by omega, ?_⟩
    intro b hb
    have := foldl_max_le agg 0 b (Or.inl hb)
    omega

/-- Non-vacuity: two vertices of aggregate 0 and one of aggregate 1 among five vertices. -/
example : renumberOwn [0, 1, 0, 1, 0] [2, 3, 4] = .ok [0, 1, 2, 3, 2] := by decide +kernel

/-- With an isolated vertex the numbers overflow: the aggregate of vertex 1 becomes `UNAGGREGATED`, that of vertex 2 becomes the
aggregate number 0 of vertex 3. -/
theorem C72_periodic_isolated_counterexample :
    renumberOwn [isoNum, 1, 2, 0] [1, 2] = .ok [isoNum, vtop - 1, 0, 0] := by decide +kernel

end Amg
end Istl
