import Verif.Lemmas.HierList7

/-!
# C93: the container `Hierarchy`
-/

namespace Istl
namespace HList

variable {T : Type} {s t : St T} {h g i : Nat} {l l' : List Lev}

/-- After any calls every hierarchy has a definite sequence of levels: the walk with `++` from the finest level and the walk with `--` from
the coarsest one end, are opposite to each other, and have as many steps as `levels()` says; no level comes twice. -/
theorem C93_contents (hs : Reachable s) (hh : s.hs h ≠ none) : ∃ l, Contents s h l ∧ (∀ l', Contents s h l' → l' = l) ∧ (l.map Lev.el).Nodup := by
  have hI := ok_reachable hs
  cases hH : s.hs h with
  | none => exact absurd hH hh
  | some H =>
    rcases hI.hier h H hH with h0 | ⟨ds, hl⟩
    · subst h0
      exact ⟨[], contents_empty hH, fun _ hc => hc.inj (contents_empty hH), by simp⟩
    · refine ⟨_, hI.contents hH hl, fun _ hc => hc.inj (hI.contents hH hl), ?_⟩
      rw [List.map_reverse, List.map_map]
      refine List.pairwise_reverse.mpr ?_
      have : (Lev.el ∘ view s) = id := rfl
      rw [this, List.map_id]
      exact (hl.path.desc hI.toInv).imp (fun h e => by omega)

/-- A call works exactly if what it names exists: nothing else can go wrong, and the call leads to a reachable state again. -/
theorem C93_total (hs : Reachable s) {op : Op T} (hp : Op.Plain op) :
    (Op.Valid s op ↔ ∃ t, step s op = .ok t) ∧ ∀ t, step s op = .ok t → Reachable t :=
  ⟨⟨fun hv => (step_eff (ok_reachable hs) op hp hv).imp (fun _ h => h.1), fun ⟨_, h⟩ => valid_of (ok_reachable hs) hp h⟩,
    fun _ h => reach_step hs hp h⟩

/-- No level belongs to two hierarchies. -/
theorem C93_disjoint (hs : Reachable s) (hc : Contents s h l) (hc' : Contents s g l') (hne : h ≠ g) : ∀ x ∈ l, ∀ y ∈ l', x.el ≠ y.el :=
  fun _ hx _ hy he => hne (contents_disj (ok_reachable hs) hc hc' hx hy he)

/-- A call that does not work on a hierarchy leaves its levels alone, and the objects that are not written to keep their values. -/
theorem C93_frame (hs : Reachable s) {op : Op T} (hp : Op.Plain op) (h0 : step s op = .ok t) (hc : Contents s h l) (ht : ¬ Op.Touches s h l op) :
    Contents t h l ∧ ∀ o ∈ objects l, (∀ v, op ≠ .write o v) → t.ob o = s.ob o := by
  have hI := ok_reachable hs
  refine ⟨frame_step hI hp h0 hc ht, fun o ho hw => (eff_step hI hp h0).ob o ?_ (fun hc => ?_)⟩
  · simp only [objects, List.mem_flatMap, List.mem_cons, Option.mem_toList] at ho
    obtain ⟨x, hx, ho⟩ := ho
    have := contents_obj hI hc hx
    rcases ho with ho | ho
    · rw [ho]; exact this.2.1
    · exact this.2.2.1 o ho
  · cases op <;> first | exact hc | skip
    have hc : _ = o := hc
    subst hc
    exact hw _ rfl

/-- The hierarchy with one level, and the empty one. -/
theorem C93_mk (hs : Reachable s) {o : Nat} (h0 : step s (.mk o) = .ok t) : ∃ x, Contents t s.nH [x] ∧ x.obj = o ∧ x.red = none := by
  have hI := ok_reachable hs
  have ho : o < s.nOb := valid_of hI (by exact True.intro) h0
  simp only [step, if_pos ho] at h0
  injection h0 with h0
  subst h0
  have hel : (mkFirst o s).el s.nEl = { obj := some o } := upd_same _ _ _
  refine ⟨view (mkFirst o s) s.nEl, ?_, by simp [view, hel], by simp [view, hel]⟩
  exact (ok_mkFirst hI o ho).contents (h := s.nH) (H := ⟨some s.nEl, some s.nEl, 1⟩) (ds := [s.nEl]) (upd_same _ _ _)
    (hasList_one (by rw [hel]) (by rw [hel]))

theorem C93_empty (h0 : step s .empty = .ok t) : Contents t s.nH [] := by
  simp only [step] at h0
  injection h0 with h0
  subst h0
  exact contents_empty (upd_same _ _ _)

/-- `addCoarser` puts one new level with the constructed object at the coarse end. -/
theorem C93_addCoarser (hs : Reachable s) {v : T} (hc : Contents s h l) (h0 : step s (.add h (some v)) = .ok t) :
    ∃ x, Contents t h (l ++ [x]) ∧ t.ob x.obj = v ∧ x.red = none ∧ s.nOb ≤ x.obj ∧ (∀ o, o < s.nOb → t.ob o = s.ob o) ∧
      ∀ g l', Contents s g l' → ∀ y ∈ l', y.el ≠ x.el := by
  have hI := ok_reachable hs
  have hE := eff_step hI (by exact True.intro) h0
  have hobs : ∀ o, o < s.nOb → t.ob o = s.ob o := fun o ho => hE.ob o ho id
  have hnew : ∀ g l', Contents s g l' → ∀ y ∈ l', y.el ≠ s.nEl := fun g l' hg y hy he => by
    have := (contents_obj hI hg hy).1; omega
  refine ⟨⟨s.nEl, s.nOb, none⟩, ?_, ?_, rfl, le_refl _, hobs, hnew⟩ <;> rcases hI.contents_iff hc with ⟨hH, h1⟩ | ⟨H, ds, hH, hl, h1⟩
  · have ht : t = setH h (some ⟨some s.nEl, some s.nEl, 1⟩) (newEl { obj := some s.nOb } (newObj v s)) := by
      simp only [step, addCoarser, getH, hH, Res.ok_bind] at h0
      injection h0 with h0; rw [← h0]
    have hel : t.el s.nEl = { obj := some s.nOb } := by rw [ht]; exact upd_same _ _ _
    have := hE.ok.contents (h := h) (H := ⟨some s.nEl, some s.nEl, 1⟩) (ds := [s.nEl]) (by rw [ht]; exact upd_same _ _ _)
      (hasList_one (by rw [hel]) (by rw [hel]))
    rw [h1]
    simpa [view, hel] using this
  · obtain ⟨e, he⟩ : ∃ e, H.coarsest = some e := by
      rw [hl.coarsest]
      cases ds with
      | nil => exact absurd rfl hl.path.ne_nil
      | cons a _ => exact ⟨a, rfl⟩
    have ht : t = added h H e v s := by
      have := addCoarser_eq hH he v
      simp only [step] at h0
      rw [this] at h0
      injection h0 with h0; exact h0.symm
    have hlt := hI.coa_lt h H e hH he
    have hcon := hE.ok.contents (h := h) (by rw [ht, added_hs, if_pos rfl]) (by rw [ht]; exact added_list hI hH he hl v)
    rw [h1]
    convert hcon using 1
    rw [List.map_cons, List.reverse_cons]
    congr 1
    · congr 1
      refine List.map_congr_left (fun a ha => ?_)
      have := hI.mem_lt hH hl a ha
      simp only [view, ht, added_el hlt]
      by_cases hae : a = e
      · rw [if_pos hae, hae]
      · rw [if_neg hae, if_neg (by omega)]
    · simp only [view, ht, added_el hlt, if_neg (show ¬ s.nEl = e by omega), if_pos, Option.getD_some]
  · simp only [step, addCoarser, getH, hH, Res.ok_bind] at h0
    injection h0 with h0; rw [← h0]; exact upd_same _ _ _
  · obtain ⟨e, he⟩ : ∃ e, H.coarsest = some e := by
      rw [hl.coarsest]
      cases ds with
      | nil => exact absurd rfl hl.path.ne_nil
      | cons a _ => exact ⟨a, rfl⟩
    simp only [step, addCoarser_eq hH he v] at h0
    injection h0 with h0
    rw [← h0]
    show upd s.ob s.nOb v s.nOb = v
    exact upd_same _ _ _

/-- `addRedistributedOnCoarsest` gives the coarsest level a new redistributed object and changes nothing else. -/
theorem C93_addRedistributedOnCoarsest (hs : Reachable s) {v : T} {x : Lev} (hc : Contents s h (l ++ [x])) (h0 : step s (.addRed h v) = .ok t) :
    ∃ o, Contents t h (l ++ [{ x with red := some o }]) ∧ t.ob o = v ∧ s.nOb ≤ o ∧ ∀ p, p < s.nOb → t.ob p = s.ob p := by
  have hI := ok_reachable hs
  have hE := eff_step hI (by exact True.intro) h0
  obtain ⟨_, hcc, _, hnd⟩ := C93_contents hs (contents_hs hc)
  rw [hcc.inj hc] at hnd
  rcases hI.contents_iff hc with ⟨hH, h1⟩ | ⟨H, ds, hH, hl, h1⟩
  · simp at h1
  · have he : H.coarsest = some x.el := by
      rw [hl.coarsest]
      cases ds with
      | nil => exact absurd rfl hl.path.ne_nil
      | cons a ds =>
        rw [List.map_cons, List.reverse_cons] at h1
        have := (List.append_inj' h1 rfl).2
        injection this with this
        rw [this]; rfl
    have ht : t = setEl x.el (fun y => { y with red := some s.nOb }) (newObj v s) := by
      simp only [step, addRedistributedOnCoarsest, getH, hH, Res.ok_bind, he, deref] at h0
      injection h0 with h0; exact h0.symm
    refine ⟨s.nOb, ?_, by rw [ht]; exact upd_same _ _ _, le_refl _, fun p hp => hE.ob p hp id⟩
    have hc2 : Contents (newObj v s) h (l ++ [x]) := frame_of hI (ok_newObj hI v) hc rfl (fun _ _ => rfl)
    have := contents_setRed (ok_newObj hI v) (e := x.el) (some s.nOb) (by rw [← ht]; exact hE.ok) hc2
    rw [← ht] at this
    convert this using 1
    rw [List.map_append, List.map_cons, if_pos rfl, List.map_nil]
    congr 1
    rw [List.map_append, List.nodup_append] at hnd
    refine (List.map_id l).symm.trans (List.map_congr_left (fun y hy => ?_))
    rw [if_neg (fun e => hnd.2.2 y.el (List.mem_map_of_mem hy) x.el (by simp) e)]; rfl

/-- `addRedistributed` and `deleteRedistributed` through an iterator change the redistributed object of that level and nothing else. -/
theorem C93_iterator_redistributed (hs : Reachable s) {e o : Nat} (hi : s.its i = some (some e)) (hc : Contents s h l) :
    (∀ t, step s (.itAdd i o) = .ok t → Contents t h (l.map (fun x => if x.el = e then { x with red := some o } else x)) ∧ t.ob = s.ob) ∧
    ∀ t, step s (.itDel i) = .ok t → Contents t h (l.map (fun x => if x.el = e then { x with red := none } else x)) ∧ t.ob = s.ob := by
  have hI := ok_reachable hs
  constructor
  · intro t h0
    have ho : o < s.nOb := (valid_of hI (by exact True.intro) h0).2
    have hE := eff_step hI (by exact True.intro) h0
    simp only [step, if_pos ho, itAddRedistributed, getIt, hi, Res.ok_bind] at h0
    injection h0 with h0
    subst h0
    exact ⟨contents_setRed hI (some o) hE.ok hc, rfl⟩
  · intro t h0
    have hE := eff_step hI (by exact True.intro) h0
    simp only [step, itDeleteRedistributed, getIt, hi, Res.ok_bind] at h0
    injection h0 with h0
    subst h0
    exact ⟨contents_setRed hI none hE.ok hc, rfl⟩

/-- The copy constructor makes a deep copy: as many levels, other objects which are all different, the same values, redistributed objects
where the original has them; the original stays as it is. -/
theorem C93_copy (hs : Reachable s) (hc : Contents s h l) (h0 : step s (.copy h) = .ok t) :
    s.hs s.nH = none ∧ (∃ l', Contents t s.nH l' ∧ List.Forall₂ (SameLev s t) l l' ∧ (objects l').Nodup ∧ ∀ o ∈ objects l', s.nOb ≤ o) ∧
      Contents t h l ∧ ∀ o, o < s.nOb → t.ob o = s.ob o := by
  have hI := ok_reachable hs
  have hE := eff_step hI (by exact True.intro) h0
  refine ⟨hI.hs_fresh _ (le_refl _), ?_, frame_step hI (by exact True.intro) h0 hc id, fun o ho => hE.ob o ho id⟩
  rcases hI.contents_iff hc with ⟨hH, h1⟩ | ⟨H, ds, hH, hl, h1⟩
  · simp only [step, copy, getH, hH, Res.ok_bind] at h0
    injection h0 with h0
    subst h0
    exact ⟨[], contents_empty (upd_same _ _ _), by rw [h1]; exact .nil, by simp [objects], by simp [objects]⟩
  · obtain ⟨t', g1, _, _, _, _, _, _, _, l', g2, g3, g4, g5, _⟩ := copy_ok hI hH hl
    simp only [step, g1] at h0
    injection h0 with h0
    subst h0
    exact ⟨l', g2, by rw [h1]; exact g3, g4, fun o ho => (g5 o ho).1⟩

/-- Shared pointers between levels lead from a level to one that is older: they form no cycle, so reference counting frees what nobody can
reach. -/
theorem C93_no_cycle (hs : Reachable s) {e f : Nat} (he : (s.el e).finer = some f) : f < e := ((ok_reachable hs).fin_coa e f he).2

/-- An iterator keeps its level and all finer ones, whatever is done to the hierarchies, even after they are destroyed. -/
theorem C93_iterator_owns (hs : Reachable s) (hw : WalkDown i s l) (hi : s.its i ≠ none) {ops : List (Op T)}
    (hp : ∀ o ∈ ops, Op.Plain o ∧ ¬ Op.Moves i o) (h0 : run s ops = .ok t) :
    ∃ l', WalkDown i t l' ∧ l'.map (fun x => (x.el, x.obj)) = l.map (fun x => (x.el, x.obj)) :=
  walkDown_seen hw t (seen_run ops s s t (fun _ h => h) (ok_reachable hs) (seen_refl (ok_reachable hs)) hi hp h0)

/-- It does not keep the coarser ones: after the hierarchy is destroyed, `++` gives the end instead of a level nobody holds. -/
theorem C93_orphan (hs : Reachable s) {x : Lev} (hc : Contents s h (l ++ x :: l')) (hi : s.its i = some (some x.el))
    (hothers : ∀ j, ∀ y ∈ l', s.its j ≠ some (some y.el)) (h0 : run s [.destroy h, .inc i] = .ok t) : t.its i = some none := by
  have hI := ok_reachable hs
  rcases hI.contents_iff hc with ⟨_, h1⟩ | ⟨H, ds, hH, hl, h1⟩
  · simp at h1
  · have hds : ds = (l'.map Lev.el).reverse ++ x.el :: (l.map Lev.el).reverse := by
      have := congrArg (fun l => (l.map Lev.el).reverse) h1
      simp only [List.map_reverse, List.reverse_reverse, List.map_map] at this
      have hid : (Lev.el ∘ view s) = id := rfl
      rw [hid, List.map_id] at this
      rw [← this]; simp
    have hdead : ∀ e ∈ (l'.map Lev.el).reverse, ¬ Alive (setH h none s) e := by
      intro e he
      refine dead_of hI hH (hds ▸ hl) (fun j f hf => ?_) he
      simp only [List.mem_reverse, List.mem_map] at hf
      obtain ⟨y, hy, hf⟩ := hf
      rw [← hf]; exact hothers j y hy
    simp only [run, step, destroy, itInc, getH, hH, Res.ok_bind] at h0
    have hi2 : (setH h none s).its i = some (some x.el) := hi
    simp only [getIt, hi2, Res.ok_bind] at h0
    injection h0 with h0
    subst h0
    show upd s.its i _ i = _
    rw [upd_same]
    congr 1
    rcases List.eq_nil_or_concat (l'.map Lev.el).reverse with hn | ⟨q, c, hn⟩
    · have : (s.el x.el).coarser = none := hl.top x.el (by rw [hl.coarsest, hds, hn]; rfl)
      show lock _ (s.el x.el).coarser = none
      rw [this]; rfl
    · have hp := hl.path
      rw [hds, hn] at hp
      have : (s.el x.el).coarser = some c := Path.coa_of (pre := q) (by simpa using hp)
      show lock _ (s.el x.el).coarser = none
      rw [this]
      exact if_neg (hdead c (by rw [hn]; simp))

/-! ### Counterexamples and examples -/

theorem WalkUp.next {x : Lev} {c : Nat} (hx : Shows s i x) (hc : (s.el x.el).coarser = some c) (ha : Alive s c)
    (hw : WalkUp i (setIt i (some (some c)) s) l) : WalkUp i s (x :: l) := by
  refine .go hx ?_ hw
  simp only [itInc, getIt, hx.1, Res.ok_bind, hc, lock_alive ha]

/-- `a` with one level, `b = a`, `b.addCoarser`. -/
def prA : List (Op Nat) := [.obj 10, .mk 0, .empty, .assign 1 0, .add 1 (some 11)]

/-- The copy assignment is not the copy constructor: both hierarchies share their levels. After `b = a` and `b.addCoarser(...)` the walk over
`a` shows two levels while `a.levels()` is one. -/
theorem C93_assign_counterexample : ∃ s, run (init 0) prA = .ok s ∧ levels s 0 = .ok 1 ∧
    ∃ s', itFinest 0 s = .ok s' ∧ WalkUp s.nI s' [⟨0, 0, none⟩, ⟨1, 1, none⟩] := by
  refine ⟨_, rfl, rfl, _, rfl, ?_⟩
  exact .next (x := ⟨0, 0, none⟩) (c := 1) ⟨rfl, rfl, rfl, fun o ho => by cases ho⟩ rfl (Or.inl ⟨1, ⟨some 0, some 1, 2⟩, 1, rfl, Or.inr rfl, .refl⟩)
    (.go (x := ⟨1, 1, none⟩) ⟨rfl, rfl, rfl, fun o ho => by cases ho⟩ rfl (.stop rfl))

/-- `a` with one level; the construction of the next object throws. -/
def prT : List (Op Nat) := [.obj 10, .mk 0, .add 0 none]

/-- An exception from the construction of the object in `addCoarser` leaves a coarsest level without object: `*coarsest()` dereferences a null
pointer; and after a later successful `addCoarser` the walk from the finest level sees one level although `levels()` is two. -/
theorem C93_throw_counterexample : ∃ s, run (init 0) prT = .ok s ∧ levels s 0 = .ok 1 ∧
    (∃ s', itCoarsest 0 s = .ok s' ∧ itObj s' s.nI = .ub) ∧
    ∃ t, step s (.add 0 (some 11)) = .ok t ∧ levels t 0 = .ok 2 ∧ ∃ t', itFinest 0 t = .ok t' ∧ WalkUp t.nI t' [⟨0, 0, none⟩] := by
  refine ⟨_, rfl, rfl, ⟨_, rfl, rfl⟩, _, rfl, rfl, _, rfl, ?_⟩
  exact .go (x := ⟨0, 0, none⟩) ⟨rfl, rfl, rfl, fun o ho => by cases ho⟩ rfl (.stop rfl)

/-- A program with two levels, a redistributed object on the coarser one, an iterator and a copy. -/
noncomputable def prE : List (Op Nat) := [.obj 10, .mk 0, .add 0 (some 11), .addRed 0 12, .fin 0]

theorem prE_reach : ∃ s, run (init 0) prE = .ok s ∧ Reachable s ∧ Contents s 0 [⟨0, 0, none⟩, ⟨1, 1, some 2⟩] ∧ s.its 0 = some (some 0) := by
  refine ⟨_, rfl, ⟨0, prE, by simp [prE, Op.Plain], rfl⟩, ⟨rfl, ⟨_, rfl, ?_⟩, ⟨_, rfl, ?_⟩⟩, rfl⟩
  · exact .next (x := ⟨0, 0, none⟩) (c := 1) ⟨rfl, rfl, rfl, fun o ho => by cases ho⟩ rfl (Or.inl ⟨0, ⟨some 0, some 1, 2⟩, 1, rfl, Or.inr rfl, .refl⟩)
      (.go (x := ⟨1, 1, some 2⟩) ⟨rfl, rfl, rfl, fun o ho => by cases ho; rfl⟩ rfl (.stop rfl))
  · exact .go (x := ⟨1, 1, some 2⟩) ⟨rfl, rfl, rfl, fun o ho => by cases ho; rfl⟩ rfl
      (.go (x := ⟨0, 0, none⟩) ⟨rfl, rfl, rfl, fun o ho => by cases ho⟩ rfl (.stop rfl))

/-- The copy of it works and has two levels with three objects, none of which is an old one. -/
example : ∃ s t l', run (init 0) prE = .ok s ∧ step s (.copy 0) = .ok t ∧ Contents t 1 l' ∧ l'.length = 2 ∧ ∀ o ∈ objects l', 3 ≤ o := by
  obtain ⟨s, h1, h2, h3, _⟩ := prE_reach
  obtain ⟨t, ht⟩ := (C93_total h2 (op := .copy 0) trivial).1.mp (contents_hs h3)
  have hn : s.nH = 1 ∧ s.nOb = 3 := by injection h1 with h1; rw [← h1]; exact ⟨rfl, rfl⟩
  obtain ⟨_, ⟨l', g1, g2, _, g4⟩, _⟩ := C93_copy h2 h3 ht
  rw [hn.1] at g1
  rw [hn.2] at g4
  exact ⟨s, t, l', h1, ht, g1, g2.length_eq.symm, g4⟩

/-- Destroying it under the iterator: the next `++` gives the end. -/
example : ∃ s t, run (init 0) prE = .ok s ∧ run s [.destroy 0, .inc 0] = .ok t ∧ t.its 0 = some none := by
  obtain ⟨s, h1, h2, h3, h4⟩ := prE_reach
  obtain ⟨u, hu⟩ := (C93_total h2 (op := .destroy 0) trivial).1.mp (contents_hs h3)
  have hI := ok_reachable h2
  have hE := eff_step hI (by exact True.intro) hu
  have hi : u.its 0 = some (some 0) := by rw [hE.its 0 id (by rw [h4]; simp), h4]
  obtain ⟨t, ht⟩ := (C93_total (reach_step h2 (op := .destroy 0) trivial hu) (op := .inc 0) trivial).1.mp ⟨0, hi⟩
  have hr : run s [.destroy 0, .inc 0] = .ok t := by
    show (do let v ← step s (.destroy 0); run v [.inc 0]) = _
    rw [hu, Res.ok_bind]
    show (do let v ← step u (.inc 0); run v []) = _
    rw [ht, Res.ok_bind]; rfl
  refine ⟨s, t, h1, hr, C93_orphan h2 (l := []) (x := ⟨0, 0, none⟩) h3 h4 (fun j y hy => ?_) hr⟩
  rw [List.mem_singleton.mp hy]
  injection h1 with h1
  rw [← h1]
  show upd (fun _ => none) 0 (some (some 0)) j ≠ some (some 1)
  by_cases hj : j = 0
  · rw [hj, upd_same]; simp
  · rw [upd_ne _ _ hj]; simp

end HList
end Istl
