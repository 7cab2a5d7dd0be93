import Verif.Props.C43
import Verif.Props.C36
import Verif.Spec.ParCoarsen

/-! Coarsening on several processes: the loop over the owned vertices of one process. -/

namespace Istl
namespace Amg
open Par

theorem exclFold (A : PIS) (hl : (A.map fun e => e.loc).Nodup) (m : Nat → Bool) (v : Nat) :
    (∀ e ∈ A, e.loc = v → A.foldl (fun m e => upd m e.loc (notOwner e.attr)) m v = notOwner e.attr) ∧
    ((∀ e ∈ A, e.loc ≠ v) → A.foldl (fun m e => upd m e.loc (notOwner e.attr)) m v = m v) := by
  induction A generalizing m with
  | nil => simp
  | cons a A ih =>
    rw [List.map_cons, List.nodup_cons] at hl
    rw [List.foldl_cons]
    have ih' := ih hl.2 (upd m a.loc (notOwner a.attr))
    constructor
    · intro e he hv
      rcases List.mem_cons.mp he with rfl | he
      · rw [ih'.2]
        · rw [← hv, upd_same]
        · intro f hf hc
          exact hl.1 (List.mem_map.mpr ⟨f, hf, hc.trans hv.symm⟩)
      · exact ih'.1 e he hv
    · intro h
      rw [ih'.2 fun e he => h e (List.mem_cons_of_mem _ he), upd_ne _ _ (Ne.symm (h a (List.mem_cons_self ..)))]

theorem exclInit_iff {A : PIS} (hA : PisOk A) (v : Nat) : exclInit A v = true ↔ Foreign A v := by
  unfold exclInit Foreign
  by_cases h : ∃ e ∈ A, e.loc = v
  · obtain ⟨e, he, hv⟩ := h
    rw [(exclFold A hA.locs _ v).1 e he hv]
    constructor
    · intro hn
      exact ⟨e, he, hv, by intro hc; simp [notOwner, isOwner, hc] at hn⟩
    · rintro ⟨f, hf, hv', ha⟩
      obtain rfl : f = e := List.inj_on_of_nodup_map hA.locs hf he (hv'.trans hv.symm)
      simp [notOwner, isOwner, ha]
  · rw [(exclFold A hA.locs _ v).2 (fun e he hc => h ⟨e, he, hc⟩)]
    simp only [Bool.false_eq_true, false_iff]
    rintro ⟨e, he, hv, -⟩
    exact h ⟨e, he, hv⟩

theorem pairOf_some {A : PIS} (hA : PisOk A) {v : Nat} {e : Idx} : pairOf A v = some e ↔ e ∈ A ∧ e.loc = v := by
  unfold pairOf
  constructor
  · intro h
    exact ⟨List.mem_of_find?_eq_some h, by simpa using List.find?_some h⟩
  · rintro ⟨he, hv⟩
    cases h : A.find? (fun e => decide (e.loc = v)) with
    | none => exact absurd hv (by simpa using List.find?_eq_none.mp h e he)
    | some f =>
      have h1 := List.mem_of_find?_eq_some h
      have h2 : f.loc = v := by simpa using List.find?_some h
      rw [List.inj_on_of_nodup_map hA.locs h1 he (h2.trans hv.symm)]

theorem pairOf_none {A : PIS} {v : Nat} : pairOf A v = none ↔ ∀ e ∈ A, e.loc ≠ v := by
  unfold pairOf
  rw [List.find?_eq_none]
  simp

/-- what the renumberer knows after visiting the vertices of a list -/
structure NoteOk (A : PIS) (pub : Nat → Bool) (vis : List Nat) (d : PRen) : Prop where
  none : d.glob = none → ∀ e ∈ A, e.loc ∉ vis
  some : ∀ g, d.glob = some g → ∃ e ∈ A, e.loc ∈ vis ∧ e.g = g ∧ d.attr = some e.attr
  pub : d.pub = true ↔ ∃ e ∈ A, e.loc ∈ vis ∧ pub e.loc = true

theorem NoteOk.note {A : PIS} (hA : PisOk A) {pub : Nat → Bool} {vis : List Nat} {d : PRen} (h : NoteOk A pub vis d) (t : Nat) :
    NoteOk A pub (vis ++ [t]) (PRen.note A pub t d) := by
  unfold PRen.note
  cases hp : pairOf A t with
  | none =>
    have hp' := pairOf_none.mp hp
    refine ⟨?_, ?_, ?_⟩
    · intro hg e he
      have := h.none hg e he
      simp [this, hp' e he]
    · intro g hg
      obtain ⟨e, he, h1, h2⟩ := h.some g hg
      exact ⟨e, he, List.mem_append_left _ h1, h2⟩
    · rw [h.pub]
      constructor
      · rintro ⟨e, he, h1, h2⟩; exact ⟨e, he, List.mem_append_left _ h1, h2⟩
      · rintro ⟨e, he, h1, h2⟩
        refine ⟨e, he, ?_, h2⟩
        rcases List.mem_append.mp h1 with h1 | h1
        · exact h1
        · exact absurd (List.mem_singleton.mp h1) (hp' e he)
  | some e =>
    obtain ⟨he, hl⟩ := (pairOf_some hA).mp hp
    refine ⟨by intro hg; simp at hg, ?_, ?_⟩
    · intro g hg
      exact ⟨e, he, by simp [hl], by simpa using hg, rfl⟩
    · dsimp only
      rw [Bool.or_eq_true, h.pub]
      constructor
      · rintro (⟨f, hf, h1, h2⟩ | hpb)
        · exact ⟨f, hf, List.mem_append_left _ h1, h2⟩
        · exact ⟨e, he, by simp [hl], hpb⟩
      · rintro ⟨f, hf, h1, h2⟩
        rcases List.mem_append.mp h1 with h1 | h1
        · exact Or.inl ⟨f, hf, h1, h2⟩
        · obtain rfl := List.inj_on_of_nodup_map hA.locs hf he ((List.mem_singleton.mp h1).trans hl.symm)
          exact Or.inr h2

theorem note_agg (A : PIS) (pub : Nat → Bool) (t : Nat) (d : PRen) : (PRen.note A pub t d).agg = d.agg := by
  unfold PRen.note; split <;> rfl

theorem bob_par (S : Graph) {A : PIS} (hA : PisOk A) (pub : Nat → Bool) (num start : Nat) (a : Agg) (m0 : Nat → Bool) (A0 : Nat → Agg) :
    BOb S (parVisitor A pub num) a m0 A0
      (fun vis _ d => start ∈ vis ∧ (∀ w, d.agg w = if w ∈ vis ∧ w ≠ start then .id num else A0 w) ∧ NoteOk A pub vis d) := by
  refine ⟨?_, ?_, ?_, ?_, ?_⟩
  · intro d u t w hw
    simp only [parVisitor]
    rw [note_agg]
    dsimp only
    rw [upd_ne _ _ hw]
  · intros; rfl
  · intro vis E d u t ⟨hs, hd, hn⟩ _ _ ht _ _
    refine ⟨List.mem_append_left _ hs, ?_, ?_⟩
    · intro w
      simp only [parVisitor]
      rw [note_agg]
      dsimp only
      by_cases hw : w = t
      · subst hw
        have : w ≠ start := fun hc => ht (hc ▸ hs)
        simp [this]
      · rw [upd_ne _ _ hw, hd w]
        simp [hw]
    · simp only [parVisitor]
      exact NoteOk.note (d := { d with agg := upd d.agg t (.id num) }) hA ⟨hn.none, hn.some, hn.pub⟩ t
  · intro vis E d u t h _ _ _ _; exact h
  · intro vis E d u t h _ _ _; exact h

theorem subGraph_wf {G : Graph} (hG : G.WF) (ex : Nat → Bool) : (subGraph G ex).WF := by
  intro u hu t ht
  unfold subGraph at ht hu ⊢
  dsimp only at ht hu ⊢
  split at ht
  · simp at ht
  · rw [List.mem_insertionSort, List.mem_filter] at ht
    exact hG u hu t ht.1

theorem mem_subGraph {G : Graph} {ex : Nat → Bool} {u t : Nat} :
    t ∈ (subGraph G ex).adj u ↔ ex u = false ∧ t ∈ G.adj u ∧ ex t = false := by
  unfold subGraph
  dsimp only
  split
  · rename_i h; simp [h]
  · rename_i h
    rw [List.mem_insertionSort, List.mem_filter]
    simp [h]

/-- state after the vertices below `i` -/
structure PCInv (G : Graph) (A : PIS) (pub : Nat → Bool) (agg : Nat → Agg) (i : Nat) (s : CoSt) : Prop where
  number : s.number = numBelow (ownMap A agg) i
  ext : ∀ v, Foreign A v → s.mark v = false ∧ s.agg v = agg v
  iso : ∀ v, ¬ Foreign A v → agg v = .iso → s.mark v = false ∧ s.agg v = .iso
  done : ∀ f v, v < G.n → IsFirst (ownMap A agg) f → ownMap A agg v = ownMap A agg f → f < i →
    s.mark v = true ∧ s.agg v = .id (numBelow (ownMap A agg) f)
  todo : ∀ f v, v < G.n → IsFirst (ownMap A agg) f → ownMap A agg v = ownMap A agg f → i ≤ f → s.mark v = false ∧ s.agg v = agg v
  out : ∀ v, G.n ≤ v → s.mark v = false ∧ s.agg v = agg v
  entry : ∀ x ∈ s.added, ∃ f, f < i ∧ IsFirst (ownMap A agg) f ∧ x.1.loc = numBelow (ownMap A agg) f ∧
    (∃ e ∈ A, ownMap A agg e.loc = ownMap A agg f ∧ x.1.g = e.g ∧ x.1.attr = e.attr) ∧
    (x.2 = true ↔ ∃ e ∈ A, ownMap A agg e.loc = ownMap A agg f ∧ pub e.loc = true)
  there : ∀ f, f < i → IsFirst (ownMap A agg) f → (∃ e ∈ A, ownMap A agg e.loc = ownMap A agg f) →
    ∃ x ∈ s.added, x.1.loc = numBelow (ownMap A agg) f
  locs : (s.added.map fun x => x.1.loc).Nodup

theorem ownMap_ne {A : PIS} {agg : Nat → Agg} {v : Nat} (h : ownMap A agg v ≠ .iso) : ¬ Foreign A v ∧ ownMap A agg v = agg v := by
  unfold ownMap at h ⊢
  split at h
  · exact absurd rfl h
  · rename_i hf; exact ⟨hf, by rw [if_neg hf]⟩

theorem coarsen_step (G : Graph) (hG : G.WF) {A : PIS} (hA : PisOk A) (hb : ∀ e ∈ A, e.loc < G.n) (pub : Nat → Bool) (agg : Nat → Agg)
    (hc : OwnConnected G A agg) (fuel : Nat) (hf : G.n + 1 ≤ fuel) (i : Nat) (hi : i < G.n) (hown : ¬ Foreign A i) (s : CoSt)
    (h : PCInv G A pub agg i s) :
    ∃ s', coarsenStep (subGraph G (exclInit A)) A pub fuel s i = some (.ok s') ∧ PCInv G A pub agg (i + 1) s' := by
  have hexf : ∀ v, exclInit A v = false ↔ ¬ Foreign A v := by
    intro v
    rw [← exclInit_iff hA]; simp
  set m := ownMap A agg with hmdef
  have hmi : m i = agg i := by rw [hmdef]; unfold ownMap; rw [if_neg hown]
  unfold coarsenStep
  by_cases hiso : agg i = .iso
  · have h1 := h.iso i hown hiso
    rw [if_neg (by simp [h1.2])]
    have hnf : ¬ IsFirst m i := fun hc => hc.1 (hmi.trans hiso)
    refine ⟨s, rfl, ?_, h.ext, h.iso, ?_, ?_, h.out, ?_, ?_, h.locs⟩
    · rw [numBelow_succ, if_neg hnf]; exact h.number
    · intro f v hv hF e hfi
      have : f ≠ i := fun hc => hnf (hc ▸ hF)
      exact h.done f v hv hF e (by omega)
    · intro f v hv hF e hfi
      exact h.todo f v hv hF e (by omega)
    · intro x hx
      obtain ⟨f, hfi, r⟩ := h.entry x hx
      exact ⟨f, by omega, r⟩
    · intro f hfi hF he
      have : f ≠ i := fun hc => hnf (hc ▸ hF)
      exact h.there f (by omega) hF he
  · obtain ⟨f, hfi, hF, e⟩ := exists_first m i (by rw [hmi]; exact hiso)
    rcases Nat.lt_or_ge f i with hlt | hge
    · have h1 := h.done f i hi hF e hlt
      rw [if_neg (by simp [h1.1])]
      have hnf : ¬ IsFirst m i := fun hc => by have := first_unique hF hc e.symm; omega
      refine ⟨s, rfl, ?_, h.ext, h.iso, ?_, ?_, h.out, ?_, ?_, h.locs⟩
      · rw [numBelow_succ, if_neg hnf]; exact h.number
      · intro f v hv hF e hfi
        have : f ≠ i := fun hc => hnf (hc ▸ hF)
        exact h.done f v hv hF e (by omega)
      · intro f v hv hF e hfi
        exact h.todo f v hv hF e (by omega)
      · intro x hx
        obtain ⟨f, hfi, r⟩ := h.entry x hx
        exact ⟨f, by omega, r⟩
      · intro f hfi hF he
        have : f ≠ i := fun hc => hnf (hc ▸ hF)
        exact h.there f (by omega) hF he
    · obtain rfl : f = i := by omega
      have h1 := h.todo f f hi hF rfl (le_refl _)
      rw [if_pos ⟨by rw [h1.2]; exact hiso, h1.1⟩]
      have hmf : m f ≠ .iso := hF.1
      -- the unmarked owned vertices with the value `agg f` are those of the aggregate
      have hcls : ∀ t, t < G.n → ¬ Foreign A t → ((s.agg t = agg f ∧ s.mark t = false) ↔ m t = m f) := by
        intro t ht hto
        have hmt : m t = agg t := by rw [hmdef]; unfold ownMap; rw [if_neg hto]
        constructor
        · rintro ⟨ha, hm⟩
          by_cases hti : agg t = .iso
          · rw [(h.iso t hto hti).2] at ha
            exact absurd ha.symm hiso
          · obtain ⟨g, _, hG', e'⟩ := exists_first m t (by rw [hmt]; exact hti)
            rcases Nat.lt_or_ge g f with hl | hl
            · have := (h.done g t ht hG' e' hl).1
              rw [hm] at this; cases this
            · rw [(h.todo g t ht hG' e' hl).2] at ha
              rw [hmt, hmi, ha]
        · intro e'
          have := h.todo f t ht hF e' (le_refl _)
          exact ⟨by rw [this.2, ← hmt, e', hmi], this.1⟩
      rw [h1.2]
      obtain ⟨vis, d, sph, mark', e1, hm', hvis, hlt, hJ⟩ := bfs_spec (G := subGraph G (exclInit A)) (start := f) (m0 := s.mark)
        (A0 := s.agg) (subGraph_wf hG _) hi h1.1 (bob_par _ hA pub s.number f (agg f) s.mark s.agg)
        (PRen.note A pub f ⟨s.agg, none, s.attr, false⟩) (fun t => by simp [parVisitor, note_agg])
        ⟨by simp, by intro w; rw [note_agg]; simp, by
          have := NoteOk.note hA (vis := []) (pub := pub) (d := ⟨s.agg, none, s.attr, false⟩) ⟨by simp, by simp, by simp⟩ f
          simpa using this⟩ fuel hf
      have hvis' : ∀ t, t ∈ vis ↔ (t < G.n ∧ m t = m f) := by
        intro t
        constructor
        · intro ht
          refine ⟨hlt t ht, ?_⟩
          rcases Relation.ReflTransGen.cases_tail ((hvis t).mp ht) with hr | ⟨u, _, hs⟩
          · rw [hr]
          · have hto : ¬ Foreign A t := (hexf t).mp (mem_subGraph.mp hs.1).2.2
            exact (hcls t (hlt t ht) hto).mp hs.2
        · rintro ⟨ht, e'⟩
          rw [hvis t]
          have hr := hc f t hi ht hF e'
          have : ∀ w, Relation.ReflTransGen (fun u t => t ∈ G.adj u ∧ m t = m f) f w →
              Relation.ReflTransGen (BStep (subGraph G (exclInit A)) (agg f) s.agg s.mark) f w ∧ w < G.n ∧ m w = m f := by
            intro w hw
            induction hw with
            | refl => exact ⟨.refl, hi, rfl⟩
            | @tail b c _ hs ih =>
              have hl := hG _ ih.2.1 _ hs.1
              have hbo : ¬ Foreign A b := (ownMap_ne (agg := agg) (by rw [← hmdef, ih.2.2]; exact hmf)).1
              have hco : ¬ Foreign A c := (ownMap_ne (agg := agg) (by rw [← hmdef, hs.2]; exact hmf)).1
              have := (hcls _ hl hco).mpr hs.2
              exact ⟨ih.1.tail ⟨mem_subGraph.mpr ⟨(hexf _).mpr hbo, hs.1, (hexf _).mpr hco⟩, this⟩, hl, hs.2⟩
          exact (this t hr).1
      rw [e1]
      simp only [Option.map_some]
      obtain ⟨hJs, hJa, hJn⟩ := hJ
      -- the fields that do not depend on what was added
      have hnum : s.number + 1 = numBelow m (f + 1) := by rw [numBelow_succ, if_pos hF, ← h.number]
      have hext : ∀ v, Foreign A v → mark' v = false ∧ upd d.agg f (.id s.number) v = agg v := by
        intro v hv
        have hmv : m v = .iso := by rw [hmdef]; unfold ownMap; rw [if_pos hv]
        have hne : v ≠ f := fun hc => hown (hc ▸ hv)
        have hnv : v ∉ vis := by
          intro hc
          exact hmf ((((hvis' v).mp hc).2).symm.trans hmv)
        have := h.ext v hv
        refine ⟨?_, ?_⟩
        · by_contra hcon
          have := (hm' v).mp (by simpa using hcon)
          simp_all
        · rw [upd_ne _ _ hne, hJa v]
          rw [if_neg fun hc => hnv hc.1, this.2]
      have hiso' : ∀ v, ¬ Foreign A v → agg v = .iso → mark' v = false ∧ upd d.agg f (.id s.number) v = .iso := by
        intro v hv hvi
        have hmv : m v = .iso := by rw [hmdef]; unfold ownMap; rw [if_neg hv, hvi]
        have hne : v ≠ f := fun hc => hiso (hc ▸ hvi)
        have hnv : v ∉ vis := by
          intro hc
          exact hmf ((((hvis' v).mp hc).2).symm.trans hmv)
        have := h.iso v hv hvi
        refine ⟨?_, ?_⟩
        · by_contra hcon
          have := (hm' v).mp (by simpa using hcon)
          simp_all
        · rw [upd_ne _ _ hne, hJa v]
          rw [if_neg fun hc => hnv hc.1, this.2]
      have hdone : ∀ g v, v < G.n → IsFirst m g → m v = m g → g < f + 1 →
          mark' v = true ∧ upd d.agg f (.id s.number) v = .id (numBelow m g) := by
        intro g v hv hG' e' hg
        by_cases hgf : g = f
        · subst hgf
          have hin := (hvis' v).mpr ⟨hv, e'⟩
          refine ⟨(hm' v).mpr (Or.inr hin), ?_⟩
          by_cases hvf : v = g
          · subst hvf; rw [upd_same, h.number]
          · rw [upd_ne _ _ hvf, hJa v]
            rw [if_pos ⟨hin, hvf⟩, h.number]
        · have hd := h.done g v hv hG' e' (by omega)
          have hnv : v ∉ vis := by
            intro hc
            have := ((hvis' v).mp hc).2
            exact hgf (first_unique hG' hF (by rw [← e', this]))
          have hne : v ≠ f := fun hc => hgf (first_unique hG' hF (by rw [← e', hc]))
          refine ⟨(hm' v).mpr (Or.inl hd.1), ?_⟩
          rw [upd_ne _ _ hne, hJa v]
          rw [if_neg fun hc => hnv hc.1, hd.2]
      have htodo : ∀ g v, v < G.n → IsFirst m g → m v = m g → f + 1 ≤ g →
          mark' v = false ∧ upd d.agg f (.id s.number) v = agg v := by
        intro g v hv hG' e' hg
        have hgf : g ≠ f := by omega
        have hd := h.todo g v hv hG' e' (by omega)
        have hnv : v ∉ vis := by
          intro hc
          have := ((hvis' v).mp hc).2
          exact hgf (first_unique hG' hF (by rw [← e', this]))
        have hne : v ≠ f := fun hc => hgf (first_unique hG' hF (by rw [← e', hc]))
        refine ⟨?_, ?_⟩
        · by_contra hcon
          have := (hm' v).mp (by simpa using hcon)
          simp_all
        · rw [upd_ne _ _ hne, hJa v]
          rw [if_neg fun hc => hnv hc.1, hd.2]
      have hout : ∀ v, G.n ≤ v → mark' v = false ∧ upd d.agg f (.id s.number) v = agg v := by
        intro v hv
        have hd := h.out v hv
        have hnv : v ∉ vis := fun hc => by have : v < G.n := hlt v hc; omega
        have hne : v ≠ f := by omega
        refine ⟨?_, ?_⟩
        · by_contra hcon
          have := (hm' v).mp (by simpa using hcon)
          simp_all
        · rw [upd_ne _ _ hne, hJa v]
          rw [if_neg fun hc => hnv hc.1, hd.2]
      have hmemA : ∀ e ∈ A, (e.loc ∈ vis ↔ m e.loc = m f) := fun e he => by
        rw [hvis' e.loc]; exact ⟨fun h => h.2, fun h => ⟨hb e he, h⟩⟩
      cases hg : d.glob with
      | none =>
        refine ⟨_, rfl, hnum, hext, hiso', hdone, htodo, hout, ?_, ?_, h.locs⟩
        · intro x hx
          obtain ⟨g, hgi, r⟩ := h.entry x hx
          exact ⟨g, by omega, r⟩
        · intro g hgi hG' ⟨e', he', heq⟩
          by_cases hgf : g = f
          · subst hgf
            exact absurd ((hmemA e' he').mpr heq) (hJn.none hg e' he')
          · exact h.there g (by omega) hG' ⟨e', he', heq⟩
      | some gl =>
        obtain ⟨e0, he0, hev, heg, hea⟩ := hJn.some gl hg
        rw [hea]
        refine ⟨_, rfl, hnum, hext, hiso', hdone, htodo, hout, ?_, ?_, ?_⟩
        · intro x hx
          rcases List.mem_append.mp hx with hx | hx
          · obtain ⟨g, hgi, r⟩ := h.entry x hx
            exact ⟨g, by omega, r⟩
          · rw [List.mem_singleton] at hx
            subst hx
            refine ⟨f, by omega, hF, h.number, ⟨e0, he0, (hmemA e0 he0).mp hev, heg.symm, rfl⟩, ?_⟩
            dsimp only
            rw [hJn.pub]
            constructor
            · rintro ⟨e', he', h1, h2⟩; exact ⟨e', he', (hmemA e' he').mp h1, h2⟩
            · rintro ⟨e', he', h1, h2⟩; exact ⟨e', he', (hmemA e' he').mpr h1, h2⟩
        · intro g hgi hG' hE
          by_cases hgf : g = f
          · subst hgf
            exact ⟨_, List.mem_append_right _ (List.mem_singleton_self _), h.number⟩
          · obtain ⟨x, hx, hxl⟩ := h.there g (by omega) hG' hE
            exact ⟨x, List.mem_append_left _ hx, hxl⟩
        · rw [List.map_append, List.nodup_append]
          refine ⟨h.locs, by simp, ?_⟩
          intro a ha b hb' hab
          simp only [List.map_cons, List.map_nil, List.mem_singleton] at hb'
          obtain ⟨x, hx, rfl⟩ := List.mem_map.mp ha
          obtain ⟨g, hgi, hG', hxl, -⟩ := h.entry x hx
          have h3 := numBelow_lt m hG' hgi
          have h4 : s.number = numBelow m f := h.number
          have h5 : x.1.loc = numBelow m g := hxl
          omega

end Amg
end Istl
