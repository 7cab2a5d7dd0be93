import Verif.Lemmas.ParCoarsen

/-! Coarsening on several processes: the whole loop, the remote indices, the synchronisation. -/

namespace Istl
namespace Amg
open Par

theorem subVerts_succ (i : Nat) (ex : Nat → Bool) : subVerts (i + 1) ex = subVerts i ex ++ (if ex i then [] else [i]) := by
  unfold subVerts
  rw [List.range_succ, List.filter_append]
  congr 1
  cases h : ex i <;> simp [h]

theorem mem_subVerts {n : Nat} {ex : Nat → Bool} {v : Nat} : v ∈ subVerts n ex ↔ v < n ∧ ex v = false := by
  unfold subVerts
  rw [List.mem_filter, List.mem_range]
  simp

theorem coarsen_loop (G : Graph) (hG : G.WF) {A : PIS} (hA : PisOk A) (hb : ∀ e ∈ A, e.loc < G.n) (pub : Nat → Bool) (agg : Nat → Agg)
    (hc : OwnConnected G A agg) (fuel : Nat) (hf : G.n + 1 ≤ fuel) :
    ∀ i, i ≤ G.n → ∃ s, coarsenLoop (subGraph G (exclInit A)) A pub fuel (subVerts i (exclInit A)) ⟨agg, fun _ => false, 0, none, []⟩ =
      some (.ok s) ∧ PCInv G A pub agg i s
  | 0, _ => by
    refine ⟨_, rfl, ?_, ?_, ?_, ?_, ?_, ?_, ?_, ?_, ?_⟩
    · simp [numBelow]
    · intros; exact ⟨rfl, rfl⟩
    · intro v _ hv; exact ⟨rfl, hv⟩
    · intro f v _ _ _ hl; omega
    · intros; exact ⟨rfl, rfl⟩
    · intros; exact ⟨rfl, rfl⟩
    · simp
    · intro f hl; omega
    · simp
  | i + 1, hi => by
    obtain ⟨s, e, h⟩ := coarsen_loop G hG hA hb pub agg hc fuel hf i (by omega)
    rw [subVerts_succ]
    unfold coarsenLoop at e ⊢
    rw [List.foldl_append, e]
    by_cases hF : Foreign A i
    · rw [if_pos ((exclInit_iff hA i).mpr hF)]
      have hnf : ¬ IsFirst (ownMap A agg) i := fun hc => hc.1 (by unfold ownMap; rw [if_pos hF])
      refine ⟨s, rfl, ?_, h.ext, h.iso, ?_, ?_, h.out, ?_, ?_, h.locs⟩
      · rw [numBelow_succ, if_neg hnf]; exact h.number
      · intro f v hv hF' e' hfi
        have : f ≠ i := fun hc => hnf (hc ▸ hF')
        exact h.done f v hv hF' e' (by omega)
      · intro f v hv hF' e' hfi
        exact h.todo f v hv hF' e' (by omega)
      · intro x hx
        obtain ⟨f, hfi, r⟩ := h.entry x hx
        exact ⟨f, by omega, r⟩
      · intro f hfi hF' he
        have : f ≠ i := fun hc => hnf (hc ▸ hF')
        exact h.there f (by omega) hF' he
    · rw [if_neg (by rw [exclInit_iff hA]; exact hF)]
      obtain ⟨s', e', h'⟩ := coarsen_step G hG hA hb pub agg hc fuel hf i (by omega) hF s h
      exact ⟨s', by simpa using e', h'⟩

theorem foldl_unmark (vs : List Nat) (m : Nat → Bool) (v : Nat) (h : m v = true → v ∈ vs) :
    vs.foldl (fun m v => upd m v false) m v = false := by
  induction vs generalizing m with
  | nil =>
    cases hm : m v with
    | false => simp [hm]
    | true => simp at h; simp [h] at hm
  | cons a vs ih =>
    rw [List.foldl_cons]
    apply ih
    intro hm
    by_cases hv : v = a
    · subst hv; simp at hm
    · rw [upd_ne _ _ hv] at hm
      rcases List.mem_cons.mp (h hm) with h' | h'
      · exact absurd h' hv
      · exact h'

/-- what `buildCoarseIndexSet` leaves on a process -/
structure Local (G : Graph) (A : PIS) (pub : Nat → Bool) (agg : Nat → Agg) (s : CoSt) : Prop where
  number : s.number = numBelow (ownMap A agg) G.n
  marks : ∀ v, s.mark v = false
  ext : ∀ v, Foreign A v → s.agg v = agg v
  iso : ∀ v, ¬ Foreign A v → agg v = .iso → s.agg v = .iso
  ids : ∀ f v, v < G.n → IsFirst (ownMap A agg) f → ownMap A agg v = ownMap A agg f → s.agg v = .id (numBelow (ownMap A agg) f)
  entry : ∀ x ∈ s.added, ∃ f, f < G.n ∧ IsFirst (ownMap A agg) f ∧ x.1.loc = numBelow (ownMap A agg) f ∧
    (∃ e ∈ A, ownMap A agg e.loc = ownMap A agg f ∧ x.1.g = e.g ∧ x.1.attr = e.attr) ∧
    (x.2 = true ↔ ∃ e ∈ A, ownMap A agg e.loc = ownMap A agg f ∧ pub e.loc = true)
  there : ∀ f, f < G.n → IsFirst (ownMap A agg) f → (∃ e ∈ A, ownMap A agg e.loc = ownMap A agg f) →
    ∃ x ∈ s.added, x.1.loc = numBelow (ownMap A agg) f
  locs : (s.added.map fun x => x.1.loc).Nodup

theorem first_le {agg : Nat → Agg} {f v : Nat} (hF : IsFirst agg f) (h : agg v = agg f) : f ≤ v := by
  by_contra hc
  exact hF.2 v (by omega) h

theorem buildCoarse_spec (G : Graph) (hG : G.WF) {A : PIS} (hA : PisOk A) (hb : ∀ e ∈ A, e.loc < G.n) (pub : Nat → Bool)
    (agg : Nat → Agg) (hc : OwnConnected G A agg) (fuel : Nat) (hf : G.n + 1 ≤ fuel) :
    ∃ s, buildCoarse G A pub fuel agg = some (.ok s) ∧ Local G A pub agg s := by
  obtain ⟨s, e, h⟩ := coarsen_loop G hG hA hb pub agg hc fuel hf G.n (le_refl _)
  refine ⟨{ s with mark := (subVerts G.n (exclInit A)).foldl (fun m v => upd m v false) s.mark },
    by unfold buildCoarse; rw [e]; rfl, h.number, ?_, fun v hv => (h.ext v hv).2, fun v hv hi => (h.iso v hv hi).2, ?_,
    h.entry, h.there, h.locs⟩
  · intro v
    apply foldl_unmark
    intro hm
    rw [mem_subVerts]
    constructor
    · by_contra hv
      rw [(h.out v (by omega)).1] at hm; cases hm
    · rw [← Bool.not_eq_true, exclInit_iff hA]
      intro hF
      rw [(h.ext v hF).1] at hm; cases hm
  · intro f v hv hF e'
    exact (h.done f v hv hF e' (by have := first_le hF e'; omega)).2

/-! ## Sorting by global index -/

theorem mem_sortG {L : PIS} {e : Idx} : e ∈ sortG L ↔ e ∈ L := by
  unfold sortG; rw [List.mem_insertionSort]

theorem sortG_ok {L : PIS} (hg : (L.map fun e => e.g).Nodup) (hl : (L.map fun e => e.loc).Nodup) : PisOk (sortG L) := by
  have hp : (sortG L).Perm L := List.perm_insertionSort _ L
  refine ⟨?_, ((hp.map _).nodup_iff).mpr hl⟩
  have h1 : (sortG L).Pairwise (fun a b => a.g ≤ b.g) := by
    letI : Std.Total (fun a b : Idx => a.g ≤ b.g) := ⟨fun a b => le_total _ _⟩
    letI : IsTrans Idx (fun a b : Idx => a.g ≤ b.g) := ⟨fun a b c h1 h2 => le_trans h1 h2⟩
    exact List.pairwise_insertionSort _ L
  have h2 : ((sortG L).map fun e => e.g).Nodup := ((hp.map _).nodup_iff).mpr hg
  have h3 : (sortG L).Pairwise (fun a b => a.g ≠ b.g) := by
    rw [List.Nodup, List.pairwise_map] at h2
    exact h2
  exact (h1.and h3).imp fun h => lt_of_le_of_ne h.1 h.2

/-! ## Remote indices -/

theorem mem_remoteList {A B : PIS} (hB : PisOk B) {x : Idx × Attr} :
    x ∈ remoteList A B ↔ x.1 ∈ A ∧ ∃ r ∈ B, r.g = x.1.g ∧ r.attr = x.2 := by
  unfold remoteList
  rw [List.mem_filterMap]
  constructor
  · rintro ⟨e, he, h⟩
    rw [Option.map_eq_some_iff] at h
    obtain ⟨r, hr, rfl⟩ := h
    obtain ⟨h1, h2⟩ := (lookup_iff hB e.g r).mp hr
    exact ⟨he, r, h1, h2, rfl⟩
  · rintro ⟨he, r, h1, h2, h3⟩
    refine ⟨x.1, he, ?_⟩
    rw [Option.map_eq_some_iff]
    exact ⟨r, (lookup_iff hB _ r).mpr ⟨h1, h2⟩, by rw [h3]⟩

/-- the remote indices that count -/
def Counts (agg : Nat → Agg) (a : Nat) (r : Idx × Attr) : Prop := r.1.attr = .owner ∧ agg r.1.loc = .id a

theorem coarseAttrs_fold (agg : Nat → Agg) (R : List (Idx × Attr)) (number : Nat)
    (hR : ∀ r ∈ R, r.1.attr = .owner → agg r.1.loc ≠ .iso → ∃ a, a < number ∧ agg r.1.loc = .id a)
    (L : List (Option Attr)) (hL : L.length = number) :
    ∃ L', R.foldlM (fun L r =>
      if notOwner r.1.attr = false ∧ agg r.1.loc ≠ .iso then do
        let a ← (agg r.1.loc).index
        let old ← rd L a
        if old ≠ some Attr.copy then wr L a (some r.2) else .ok L
      else .ok L) L = .ok L' ∧ L'.length = number ∧
      (∀ a : Nat, L'[a]? = some none ↔ L[a]? = some none ∧ ∀ r ∈ R, ¬ Counts agg a r) ∧
      (∀ a : Nat, L'[a]? = some (some Attr.copy) ↔ L[a]? = some (some Attr.copy) ∨ (a < number ∧ ∃ r ∈ R, Counts agg a r ∧ r.2 = .copy)) ∧
      (∀ (a : Nat) t, L'[a]? = some (some t) → L[a]? = some (some t) ∨ ∃ r ∈ R, Counts agg a r ∧ r.2 = t) := by
  induction R generalizing L with
  | nil => exact ⟨L, rfl, hL, by simp, by simp, by intro a t h; exact Or.inl h⟩
  | cons r R ih =>
    rw [List.foldlM_cons]
    have hR' : ∀ r ∈ R, r.1.attr = .owner → agg r.1.loc ≠ .iso → ∃ a, a < number ∧ agg r.1.loc = .id a :=
      fun r hr => hR r (List.mem_cons_of_mem _ hr)
    by_cases hcnd : notOwner r.1.attr = false ∧ agg r.1.loc ≠ .iso
    · rw [if_pos hcnd]
      have ho : r.1.attr = .owner := by
        have := hcnd.1
        unfold notOwner isOwner at this
        simpa using this
      obtain ⟨b, hb, hab⟩ := hR r (List.mem_cons_self ..) ho hcnd.2
      rw [hab]
      have hcb : ∀ a, Counts agg a r ↔ a = b := by
        intro a
        unfold Counts
        rw [hab]
        constructor
        · rintro ⟨-, h⟩; injection h with h; exact h.symm
        · rintro rfl; exact ⟨ho, rfl⟩
      simp only [Agg.index, Res.ok_bind]
      have hbl : b < L.length := by omega
      rw [rd_lt hbl]
      simp only [Res.ok_bind]
      by_cases hold : L[b] = some .copy
      · rw [if_neg (by rw [not_not]; exact hold)]
        simp only [Res.ok_bind]
        obtain ⟨L', e, hl, h1, h2, h3⟩ := ih hR' L hL
        have hLb : L[b]? = some (some Attr.copy) := by rw [List.getElem?_eq_getElem hbl, hold]
        refine ⟨L', e, hl, ?_, ?_, ?_⟩
        · intro a
          rw [h1 a]
          constructor
          · rintro ⟨h, h'⟩
            refine ⟨h, ?_⟩
            intro r' hr'
            rcases List.mem_cons.mp hr' with rfl | hr'
            · rw [hcb]
              rintro rfl
              rw [hLb] at h; cases h
            · exact h' r' hr'
          · rintro ⟨h, h'⟩
            exact ⟨h, fun r' hr' => h' r' (List.mem_cons_of_mem _ hr')⟩
        · intro a
          rw [h2 a]
          constructor
          · rintro (h | ⟨ha, r', hr', h⟩)
            · exact Or.inl h
            · exact Or.inr ⟨ha, r', List.mem_cons_of_mem _ hr', h⟩
          · rintro (h | ⟨ha, r', hr', hc', ht⟩)
            · exact Or.inl h
            · rcases List.mem_cons.mp hr' with rfl | hr'
              · rw [hcb] at hc'
                subst hc'
                exact Or.inl hLb
              · exact Or.inr ⟨ha, r', hr', hc', ht⟩
        · intro a t h
          rcases h3 a t h with h | ⟨r', hr', h⟩
          · exact Or.inl h
          · exact Or.inr ⟨r', List.mem_cons_of_mem _ hr', h⟩
      · rw [if_pos hold, wr_lt _ hbl]
        simp only [Res.ok_bind]
        obtain ⟨L', e, hl, h1, h2, h3⟩ := ih hR' (L.set b (some r.2)) (by rw [List.length_set]; exact hL)
        refine ⟨L', e, hl, ?_, ?_, ?_⟩
        · intro a
          rw [h1 a]
          by_cases hab' : b = a
          · subst hab'
            rw [List.getElem?_set_self hbl]
            constructor
            · rintro ⟨h, -⟩; cases h
            · rintro ⟨-, h⟩
              exact absurd ((hcb b).mpr rfl) (h r (List.mem_cons_self ..))
          · rw [List.getElem?_set_ne hab']
            constructor
            · rintro ⟨h, h'⟩
              refine ⟨h, ?_⟩
              intro r' hr'
              rcases List.mem_cons.mp hr' with rfl | hr'
              · rw [hcb]; exact fun hc => hab' hc.symm
              · exact h' r' hr'
            · rintro ⟨h, h'⟩
              exact ⟨h, fun r' hr' => h' r' (List.mem_cons_of_mem _ hr')⟩
        · intro a
          rw [h2 a]
          by_cases hab' : b = a
          · subst hab'
            rw [List.getElem?_set_self hbl]
            constructor
            · rintro (h | ⟨ha, r', hr', h⟩)
              · exact Or.inr ⟨hb, r, List.mem_cons_self .., (hcb b).mpr rfl, by simpa using h⟩
              · exact Or.inr ⟨ha, r', List.mem_cons_of_mem _ hr', h⟩
            · rintro (h | ⟨ha, r', hr', hc', ht⟩)
              · rw [List.getElem?_eq_getElem hbl] at h
                exact absurd (Option.some.inj h) hold
              · rcases List.mem_cons.mp hr' with rfl | hr'
                · left; rw [ht]
                · exact Or.inr ⟨ha, r', hr', hc', ht⟩
          · rw [List.getElem?_set_ne hab']
            constructor
            · rintro (h | ⟨ha, r', hr', h⟩)
              · exact Or.inl h
              · exact Or.inr ⟨ha, r', List.mem_cons_of_mem _ hr', h⟩
            · rintro (h | ⟨ha, r', hr', hc', ht⟩)
              · exact Or.inl h
              · rcases List.mem_cons.mp hr' with rfl | hr'
                · rw [hcb] at hc'; exact absurd hc'.symm hab'
                · exact Or.inr ⟨ha, r', hr', hc', ht⟩
        · intro a t h
          rcases h3 a t h with h | ⟨r', hr', h⟩
          · by_cases hab' : b = a
            · subst hab'
              rw [List.getElem?_set_self hbl] at h
              exact Or.inr ⟨r, List.mem_cons_self .., (hcb b).mpr rfl, by simpa using h⟩
            · rw [List.getElem?_set_ne hab'] at h
              exact Or.inl h
          · exact Or.inr ⟨r', List.mem_cons_of_mem _ hr', h⟩
    · rw [if_neg hcnd]
      simp only [Res.ok_bind]
      have hncnt : ∀ a, ¬ Counts agg a r := by
        rintro a ⟨h1, h2⟩
        apply hcnd
        refine ⟨by simp [notOwner, isOwner, h1], by rw [h2]; simp⟩
      obtain ⟨L', e, hl, h1, h2, h3⟩ := ih hR' L hL
      refine ⟨L', e, hl, ?_, ?_, ?_⟩
      · intro a
        rw [h1 a]
        constructor
        · rintro ⟨h, h'⟩
          refine ⟨h, ?_⟩
          intro r' hr'
          rcases List.mem_cons.mp hr' with rfl | hr'
          · exact hncnt a
          · exact h' r' hr'
        · rintro ⟨h, h'⟩
          exact ⟨h, fun r' hr' => h' r' (List.mem_cons_of_mem _ hr')⟩
      · intro a
        rw [h2 a]
        constructor
        · rintro (h | ⟨ha, r', hr', h⟩)
          · exact Or.inl h
          · exact Or.inr ⟨ha, r', List.mem_cons_of_mem _ hr', h⟩
        · rintro (h | ⟨ha, r', hr', hc', ht⟩)
          · exact Or.inl h
          · rcases List.mem_cons.mp hr' with rfl | hr'
            · exact absurd hc' (hncnt a)
            · exact Or.inr ⟨ha, r', hr', hc', ht⟩
      · intro a t h
        rcases h3 a t h with h | ⟨r', hr', h⟩
        · exact Or.inl h
        · exact Or.inr ⟨r', List.mem_cons_of_mem _ hr', h⟩

theorem coarseRemote_fold (L : List (Option Attr)) (C : PIS) (hC : ∀ e ∈ C, e.loc < L.length) (l : List (Idx × Attr)) :
    ∃ l', C.foldlM (fun l e => do
        let a ← rd L e.loc
        match a with
        | none => .ok l
        | some t => .ok (l ++ [(e, t)])) l = (.ok l' : Res (List (Idx × Attr))) ∧
      ∀ x, x ∈ l' ↔ x ∈ l ∨ (x.1 ∈ C ∧ L[x.1.loc]? = some (some x.2)) := by
  induction C generalizing l with
  | nil => exact ⟨l, rfl, by simp⟩
  | cons e C ih =>
    rw [List.foldlM_cons]
    have he := hC e (List.mem_cons_self ..)
    rw [rd_lt he]
    simp only [Res.ok_bind]
    have hC' : ∀ e ∈ C, e.loc < L.length := fun e he => hC e (List.mem_cons_of_mem _ he)
    cases ht : L[e.loc] with
    | none =>
      simp only [Res.ok_bind]
      obtain ⟨l', e', h⟩ := ih hC' l
      refine ⟨l', e', ?_⟩
      intro x
      rw [h x]
      constructor
      · rintro (h | ⟨h1, h2⟩)
        · exact Or.inl h
        · exact Or.inr ⟨List.mem_cons_of_mem _ h1, h2⟩
      · rintro (h | ⟨h1, h2⟩)
        · exact Or.inl h
        · rcases List.mem_cons.mp h1 with h1 | h1
          · rw [h1, List.getElem?_eq_getElem he, ht] at h2
            cases h2
          · exact Or.inr ⟨h1, h2⟩
    | some t =>
      simp only [Res.ok_bind]
      obtain ⟨l', e', h⟩ := ih hC' (l ++ [(e, t)])
      refine ⟨l', e', ?_⟩
      intro x
      rw [h x, List.mem_append, List.mem_singleton]
      constructor
      · rintro ((h | rfl) | ⟨h1, h2⟩)
        · exact Or.inl h
        · exact Or.inr ⟨List.mem_cons_self .., by dsimp only; rw [List.getElem?_eq_getElem he, ht]⟩
        · exact Or.inr ⟨List.mem_cons_of_mem _ h1, h2⟩
      · rintro (h | ⟨h1, h2⟩)
        · exact Or.inl (Or.inl h)
        · rcases List.mem_cons.mp h1 with h1 | h1
          · rw [h1, List.getElem?_eq_getElem he, ht] at h2
            left; right
            have : t = x.2 := by simpa using h2
            rw [this, ← h1]
          · exact Or.inr ⟨h1, h2⟩

/-- The remote list of the coarse level: the coarse indices with a fine index known to the other process; `copy` there if one of
these is a copy. -/
theorem coarseRemote_spec (number : Nat) (agg : Nat → Agg) (R : List (Idx × Attr)) (C : PIS)
    (hR : ∀ r ∈ R, r.1.attr = .owner → agg r.1.loc ≠ .iso → ∃ a, a < number ∧ agg r.1.loc = .id a) (hC : ∀ e ∈ C, e.loc < number) :
    ∃ l, coarseRemote number agg R C = .ok l ∧
      (∀ x ∈ l, x.1 ∈ C ∧ (∃ r ∈ R, Counts agg x.1.loc r ∧ r.2 = x.2) ∧
        (x.2 = .copy ↔ ∃ r ∈ R, Counts agg x.1.loc r ∧ r.2 = .copy)) ∧
      (∀ c ∈ C, (∃ r ∈ R, Counts agg c.loc r) → ∃ t, (c, t) ∈ l) := by
  obtain ⟨L, e1, hl, h1, h2, h3⟩ := coarseAttrs_fold agg R number hR (List.replicate number none) (by simp)
  obtain ⟨l, e2, h4⟩ := coarseRemote_fold L C (by rw [hl]; exact hC) []
  refine ⟨l, ?_, ?_, ?_⟩
  · unfold coarseRemote coarseAttrs
    rw [e1]
    simp only [Res.ok_bind]
    exact e2
  · intro x hx
    rcases (h4 x).mp hx with h | ⟨hxC, hxL⟩
    · simp at h
    refine ⟨hxC, ?_, ?_⟩
    · rcases h3 _ _ hxL with h | h
      · rw [List.getElem?_replicate] at h
        split at h <;> simp at h
      · exact h
    · constructor
      · intro hcp
        rw [hcp] at hxL
        rcases (h2 _).mp hxL with h | ⟨-, h⟩
        · rw [List.getElem?_replicate] at h
          split at h <;> simp at h
        · exact h
      · intro h
        have := (h2 x.1.loc).mpr (Or.inr ⟨hC _ hxC, h⟩)
        rw [this] at hxL
        simpa using hxL.symm
  · intro c hc ⟨r, hr, hcnt⟩
    have hlt : c.loc < L.length := by rw [hl]; exact hC c hc
    cases hLc : L[c.loc] with
    | none =>
      have : L[c.loc]? = some none := by rw [List.getElem?_eq_getElem hlt, hLc]
      exact absurd hcnt (((h1 _).mp this).2 r hr)
    | some t =>
      exact ⟨t, (h4 _).mpr (Or.inr ⟨hc, by dsimp only; rw [List.getElem?_eq_getElem hlt, hLc]⟩)⟩

/-! ## Synchronisation -/

/-- what holds while the messages are processed -/
structure SInv (C : PIS) (number : Nat) (done : List (Idx × Attr)) (st : PIS × Nat) : Prop where
  gs : (st.1.map fun e => e.g).Nodup
  locs : (st.1.map fun e => e.loc).Nodup
  bound : ∀ e ∈ st.1, e.loc < st.2
  le : number ≤ st.2
  old : ∀ e ∈ C, e ∈ st.1
  new : ∀ e ∈ st.1, e ∈ C ∨ (number ≤ e.loc ∧ (∀ c ∈ C, c.g ≠ e.g) ∧ ∃ m ∈ done, m.1.g = e.g ∧ m.2 = e.attr)
  got : ∀ m ∈ done, ∃ e ∈ st.1, e.g = m.1.g
  full : ∀ l, number ≤ l → l < st.2 → ∃ e ∈ st.1, e.loc = l

theorem lookup_mem {A : PIS} {g : Nat} {e : Idx} (h : lookup A g = some e) : e ∈ A ∧ e.g = g :=
  ⟨List.mem_of_find?_eq_some h, by simpa using List.find?_some h⟩

theorem lookup_nil {A : PIS} {g : Nat} (h : lookup A g = none) : ∀ e ∈ A, e.g ≠ g := by
  intro e he
  have := List.find?_eq_none.mp h e he
  simpa using this

theorem SInv.step {C : PIS} {number : Nat} {done : List (Idx × Attr)} {st : PIS × Nat} (h : SInv C number done st) (m : Idx × Attr) :
    SInv C number (done ++ [m]) (syncStep st m) := by
  unfold syncStep
  cases hl : lookup st.1 m.1.g with
  | some e =>
    obtain ⟨he, hg⟩ := lookup_mem hl
    refine ⟨h.gs, h.locs, h.bound, h.le, h.old, ?_, ?_, h.full⟩
    · intro e' he'
      rcases h.new e' he' with h' | ⟨h1, h2, m', hm', h3⟩
      · exact Or.inl h'
      · exact Or.inr ⟨h1, h2, m', List.mem_append_left _ hm', h3⟩
    · intro m' hm'
      rcases List.mem_append.mp hm' with hm' | hm'
      · exact h.got m' hm'
      · rw [List.mem_singleton] at hm'
        subst hm'
        exact ⟨e, he, hg⟩
  | none =>
    have hn := lookup_nil hl
    refine ⟨?_, ?_, ?_, ?_, ?_, ?_, ?_, ?_⟩
    · rw [List.map_append, List.nodup_append]
      refine ⟨h.gs, by simp, ?_⟩
      intro a ha b hb hab
      obtain ⟨e, he, rfl⟩ := List.mem_map.mp ha
      simp only [List.map_cons, List.map_nil, List.mem_singleton] at hb
      exact hn e he (hab.trans hb)
    · rw [List.map_append, List.nodup_append]
      refine ⟨h.locs, by simp, ?_⟩
      intro a ha b hb hab
      obtain ⟨e, he, rfl⟩ := List.mem_map.mp ha
      simp only [List.map_cons, List.map_nil, List.mem_singleton] at hb
      have := h.bound e he
      omega
    · intro e he
      rcases List.mem_append.mp he with he | he
      · have := h.bound e he
        dsimp only; omega
      · rw [List.mem_singleton] at he
        subst he
        simp
    · have := h.le
      dsimp only; omega
    · intro e he
      exact List.mem_append_left _ (h.old e he)
    · intro e he
      rcases List.mem_append.mp he with he | he
      · rcases h.new e he with h' | ⟨h1, h2, m', hm', h3⟩
        · exact Or.inl h'
        · exact Or.inr ⟨h1, h2, m', List.mem_append_left _ hm', h3⟩
      · rw [List.mem_singleton] at he
        subst he
        exact Or.inr ⟨h.le, fun c hc => hn c (h.old c hc), m, by simp, rfl, rfl⟩
    · intro m' hm'
      rcases List.mem_append.mp hm' with hm' | hm'
      · obtain ⟨e, he, hg⟩ := h.got m' hm'
        exact ⟨e, List.mem_append_left _ he, hg⟩
      · rw [List.mem_singleton] at hm'
        subst hm'
        exact ⟨_, List.mem_append_right _ (List.mem_singleton_self _), rfl⟩
    · intro l h1 h2
      dsimp only at h2
      rcases Nat.lt_or_ge l st.2 with h3 | h3
      · obtain ⟨e, he, hg⟩ := h.full l h1 h3
        exact ⟨e, List.mem_append_left _ he, hg⟩
      · exact ⟨_, List.mem_append_right _ (List.mem_singleton_self _), by dsimp only; omega⟩

theorem SInv.steps {C : PIS} {number : Nat} (ms : List (Idx × Attr)) {done : List (Idx × Attr)} {st : PIS × Nat} (h : SInv C number done st) :
    SInv C number (done ++ ms) (ms.foldl syncStep st) := by
  induction ms generalizing done st with
  | nil => simpa using h
  | cons m ms ih =>
    rw [List.foldl_cons]
    have := ih (h.step m)
    rwa [List.append_assoc, List.singleton_append] at this

end Amg
end Istl
