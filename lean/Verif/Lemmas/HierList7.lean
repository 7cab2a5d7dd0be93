import Verif.Lemmas.HierList6

namespace Istl
namespace HList

variable {T : Type}

theorem reach_step {s t : St T} (hs : Reachable s) {op : Op T} (hp : Op.Plain op) (h : step s op = .ok t) : Reachable t := by
  obtain ⟨d, ops, h1, h2⟩ := hs
  refine ⟨d, ops ++ [op], fun o ho => ?_, ?_⟩
  · rcases List.mem_append.mp ho with ho | ho
    · exact h1 o ho
    · rw [List.mem_singleton.mp ho]; exact hp
  · have : ∀ (l : List (Op T)) (u : St T), run u l = .ok s → run u (l ++ [op]) = .ok t := by
      intro l
      induction l with
      | nil =>
        intro u hu
        injection hu with hu
        show (do let v ← step u op; run v []) = _
        rw [hu, h, Res.ok_bind]; rfl
      | cons a l ih =>
        intro u hu
        obtain ⟨w, g1, g2⟩ := Res.bind_eq_ok.mp hu
        show (do let v ← step u a; run v (l ++ [op])) = _
        rw [g1, Res.ok_bind]; exact ih w g2
    exact this ops _ h2

theorem contents_hs {s : St T} {h : Nat} {l : List Lev} (hc : Contents s h l) : s.hs h ≠ none := by
  intro h0
  have := hc.1
  simp [levels, getH, h0] at this

theorem contents_obj {s : St T} (hI : Ok s) {h : Nat} {l : List Lev} (hc : Contents s h l) {x : Lev} (hx : x ∈ l) :
    x.el < s.nEl ∧ x.obj < s.nOb ∧ (∀ o, x.red = some o → o < s.nOb) ∧ x = view s x.el := by
  rcases hI.contents_iff hc with ⟨_, h1⟩ | ⟨H, ds, hH, hl, h1⟩
  · rw [h1] at hx; simp at hx
  · rw [h1] at hx
    simp only [List.mem_reverse, List.mem_map] at hx
    obtain ⟨e, he, hx⟩ := hx
    subst hx
    have hlt := hI.mem_lt hH hl e he
    refine ⟨hlt, ?_, fun o ho => hI.red_lt e o ho, rfl⟩
    cases ho : (s.el e).obj with
    | none => exact absurd ho (hI.has_obj e hlt)
    | some o => simp only [view, ho, Option.getD_some]; exact hI.obj_lt e o ho

theorem contents_disj {s : St T} (hI : Ok s) {h g : Nat} {l l' : List Lev} (hc : Contents s h l) (hc' : Contents s g l') {x y : Lev}
    (hx : x ∈ l) (hy : y ∈ l') (he : x.el = y.el) : h = g := by
  rcases hI.contents_iff hc with ⟨_, h1⟩ | ⟨H, ds, hH, hl, h1⟩
  · rw [h1] at hx; simp at hx
  · rcases hI.contents_iff hc' with ⟨_, h2⟩ | ⟨G, ds', hG, hl', h2⟩
    · rw [h2] at hy; simp at hy
    · rw [h1] at hx; rw [h2] at hy
      simp only [List.mem_reverse, List.mem_map] at hx hy
      obtain ⟨e, hx1, hx⟩ := hx
      obtain ⟨f, hy1, hy⟩ := hy
      subst hx; subst hy
      have he : e = f := he
      subst he
      exact disj hI.toInv hH hG hl hl' hx1 hy1

theorem head_view {s : St T} {H : Hier} {ds : List Nat} (hl : HasList s.el H ds) {e : Nat} (hc : H.coarsest = some e) :
    view s e ∈ (ds.map (view s)).reverse := by
  rw [hl.coarsest] at hc
  have : e ∈ ds := List.mem_of_head? hc
  simp only [List.mem_reverse, List.mem_map]
  exact ⟨e, this, rfl⟩

theorem not_ecg {s : St T} (hI : Ok s) {op : Op T} {h : Nat} {l : List Lev} (hc : Contents s h l) (ht : ¬ Op.Touches s h l op) {x : Lev}
    (hx : x ∈ l) : ¬ ecg s op x.el := by
  intro he
  have key : ∀ g G, s.hs g = some G → G.coarsest = some x.el → g = h := by
    intro g G hG hGc
    rcases hI.hier g G hG with h0 | ⟨ds, hl⟩
    · rw [h0] at hGc; cases hGc
    · exact (contents_disj hI hc (hI.contents hG hl) hx (head_view hl hGc) rfl).symm
  cases op with
  | addRed g v => obtain ⟨G, h1, h2⟩ := he; exact ht (key g G h1 h2)
  | add g v => obtain ⟨G, h1, h2⟩ := he; exact ht (key g G h1 h2)
  | itAdd i o => exact ht ⟨x, hx, he⟩
  | itDel i => exact ht ⟨x, hx, he⟩
  | _ => exact he

theorem frame_step {s t : St T} (hI : Ok s) {op : Op T} (hp : Op.Plain op) (h0 : step s op = .ok t) {h : Nat} {l : List Lev}
    (hc : Contents s h l) (ht : ¬ Op.Touches s h l op) : Contents t h l := by
  have hE := eff_step hI hp h0
  refine frame_of hI hE.ok hc (hE.hs h (fun hh => ht ?_) (contents_hs hc)) (fun x hx => hE.el _ (contents_obj hI hc hx).1 (not_ecg hI hc ht hx))
  cases op <;> first | exact hh | exact hh.elim

theorem contents_setRed {s : St T} (hI : Ok s) {e : Nat} (r : Option Nat) (hok : Ok (setEl e (fun x => { x with red := r }) s)) {h : Nat} {l : List Lev}
    (hc : Contents s h l) :
    Contents (setEl e (fun x => { x with red := r }) s) h (l.map (fun x => if x.el = e then { x with red := r } else x)) := by
  rcases hI.contents_iff hc with ⟨h0, h1⟩ | ⟨H, ds, hH, hl, h1⟩
  · rw [h1]; exact contents_empty h0
  · have hl' : HasList (setEl e (fun x => { x with red := r }) s).el H ds := by
      refine hl.same (fun a _ => ?_)
      show (upd s.el e _ a).finer = _ ∧ (upd s.el e _ a).coarser = _
      by_cases ha : a = e
      · rw [ha, upd_same]; exact ⟨rfl, rfl⟩
      · rw [upd_ne _ _ ha]; exact ⟨rfl, rfl⟩
    have := hok.contents (h := h) hH hl'
    rw [h1, List.map_reverse, List.map_map]
    convert this using 2
    refine List.map_congr_left (fun a _ => ?_)
    show (if a = e then _ else _) = _
    simp only [view, setEl]
    by_cases ha : a = e
    · rw [if_pos ha, ha, upd_same]
    · rw [if_neg ha, upd_ne _ _ ha]

/-- What an iterator sees on the way to the finest level. -/
structure Seen (i : Nat) (s t : St T) : Prop where
  fin : ∀ a, a < s.nEl → (t.el a).finer = (s.el a).finer ∧ (t.el a).obj = (s.el a).obj
  alloc : ∀ e, s.its i = some (some e) → e < s.nEl
  down : ∀ e f, e < s.nEl → (s.el e).finer = some f → f < s.nEl
  its : t.its i = s.its i

theorem walkDown_seen {i : Nat} {s : St T} {l : List Lev} (h : WalkDown i s l) : ∀ t : St T, Seen i s t →
    ∃ l', WalkDown i t l' ∧ l'.map (fun x => (x.el, x.obj)) = l.map (fun x => (x.el, x.obj)) := by
  induction h with
  | stop h => intro t ht; exact ⟨[], .stop (by rw [ht.its, h]), rfl⟩
  | @go s s' x l h1 h2 h3 ih =>
    intro t ht
    obtain ⟨hi, ho, _⟩ := h1
    have hlt := ht.alloc _ hi
    have hit : t.its i = some (some x.el) := by rw [ht.its, hi]
    obtain ⟨hf, hob⟩ := ht.fin _ hlt
    have hobj : (s.el x.el).obj = some x.obj := by
      simp only [itObj, getIt, hi, Res.ok_bind] at ho
      unfold deref at ho
      split at ho
      · rename_i h; rw [h]; injection ho with ho; rw [ho]
      · cases ho
    have hs' : s' = setIt i (some (s.el x.el).finer) s := by
      simp only [itDec, getIt, hi, Res.ok_bind] at h2
      injection h2 with h2; exact h2.symm
    obtain ⟨l', g1, g2⟩ := ih (setIt i (some (t.el x.el).finer) t) (by
      subst hs'
      refine ⟨ht.fin, fun e he => ?_, ht.down, ?_⟩
      · have he : upd s.its i _ i = _ := he
        rw [upd_same] at he
        injection he with he
        exact ht.down _ e hlt he
      · show upd t.its i _ i = upd s.its i _ i
        rw [upd_same, upd_same, hf])
    refine ⟨view t x.el :: l', .go (shows_view hit (by rw [hob, hobj]; simp)) (by simp [itDec, getIt, hit, Res.ok_bind, view]) g1, ?_⟩
    rw [List.map_cons, List.map_cons, g2]
    simp [view, hob, hobj]

theorem seen_refl {i : Nat} {s : St T} (hI : Ok s) : Seen i s s :=
  ⟨fun _ _ => ⟨rfl, rfl⟩, fun e he => hI.it_lt i e he, fun e f h1 h2 => by have := (hI.fin_coa e f h2).2; omega, rfl⟩

theorem eff_nEl {s t : St T} (hI : Ok s) {op : Op T} (hE : Eff s t op) : ∀ a, a < s.nEl → a < t.nEl := by
  intro a ha
  by_contra hc
  have h1 := hI.has_obj a ha
  rw [← (hE.fin a ha).2.1, hE.ok.fresh a (by omega)] at h1
  exact h1 rfl

theorem seen_run {i : Nat} : ∀ (ops : List (Op T)) (r s t : St T), (∀ a, a < r.nEl → a < s.nEl) → Ok s → Seen i r s → s.its i ≠ none →
    (∀ o ∈ ops, Op.Plain o ∧ ¬ Op.Moves i o) → run s ops = .ok t → Seen i r t
  | [], r, s, t, _, _, hS, _, _, h => by injection h with h; rw [← h]; exact hS
  | o :: ops, r, s, t, hn, hI, hS, h0, hp, h => by
    obtain ⟨u, h1, h2⟩ := Res.bind_eq_ok.mp h
    have hE := eff_step hI (hp o (by simp)).1 h1
    have hi := hE.its i (hp o (by simp)).2 h0
    refine seen_run ops r u t (fun a ha => eff_nEl hI hE a (hn a ha)) hE.ok ⟨fun a ha => ?_, hS.alloc, hS.down, by rw [hi, hS.its]⟩ (by rw [hi]; exact h0)
      (fun x hx => hp x (by simp [hx])) h2
    obtain ⟨g1, g2, _⟩ := hE.fin a (hn a ha)
    rw [g1, g2]; exact hS.fin a ha

/-- The levels above some level are closed under `coarser_`. -/
theorem coa_closed {el : Nat → El} {pre post : List Nat} {x : Nat} (hp : Path el (pre ++ x :: post))
    (ht : ∀ e, (pre ++ x :: post).head? = some e → (el e).coarser = none) {e c : Nat} (he : e ∈ pre) (hc : (el e).coarser = some c) : c ∈ pre := by
  obtain ⟨p1, p2, rfl⟩ := List.append_of_mem he
  rcases List.eq_nil_or_concat p1 with h0 | ⟨q, b, h0⟩
  · subst h0
    rw [ht e (by simp)] at hc; cases hc
  · subst h0
    have : (el e).coarser = some b := Path.coa_of (pre := q) (post := p2 ++ x :: post) (by simpa using hp)
    rw [this] at hc; injection hc with hc; subst hc
    simp

theorem dead_of {s : St T} (hI : Ok s) {h : Nat} {H : Hier} {pre post : List Nat} {x : Nat} (hH : s.hs h = some H) (hl : HasList s.el H (pre ++ x :: post))
    (hit : ∀ j, ∀ e ∈ pre, s.its j ≠ some (some e)) {e : Nat} (he : e ∈ pre) : ¬ Alive (setH h none s) e := by
  have back : ∀ r, Reach s.el r e → r ∈ pre := by
    intro r hr
    induction hr using Relation.ReflTransGen.head_induction_on with
    | refl => exact he
    | @head a b hab _ ih =>
      exact coa_closed hl.path (fun y hy => hl.top y (by rw [hl.coarsest, hy])) ih (hI.fin_coa a b hab).1
  rintro (⟨g, G, r, h1, h2, h3⟩ | ⟨i, r, h1, h2⟩)
  · have hr := back r h3
    have h1 : upd s.hs h none g = some G := h1
    by_cases hg : g = h
    · rw [hg, upd_same] at h1; cases h1
    · rw [upd_ne _ _ hg] at h1
      rcases hI.hier g G h1 with h0 | ⟨ds, hl'⟩
      · rw [h0] at h2; simp at h2
      · refine hg (disj hI.toInv h1 hH hl' hl (e := r) ?_ (by simp [hr]))
        rcases h2 with h2 | h2
        · rw [hl'.finest] at h2; exact List.mem_of_getLast? h2
        · rw [hl'.coarsest] at h2; exact List.mem_of_head? h2
  · exact hit i r (back r h2) h1

end HList
end Istl
