import Verif.Lemmas.HierList
import Mathlib.Data.List.Forall2

namespace Istl
namespace HList

variable {T : Type}

theorem Path.coa_of {el : Nat → El} {pre post : List Nat} {c e : Nat} (hp : Path el (pre ++ c :: e :: post)) : (el e).coarser = some c := by
  induction pre with
  | nil => cases hp with | cons _ h2 _ => exact h2
  | cons a p ihp =>
    cases p with
    | nil => cases hp with | cons _ _ h3 => exact ihp h3
    | cons b p => cases hp with | cons _ _ h3 => exact ihp h3

theorem head_eq {el : Nat → El} {ds ds' : List Nat} (hp : Path el ds) (hp' : Path el ds')
    (ht : ∀ e, ds.head? = some e → (el e).coarser = none) (ht' : ∀ e, ds'.head? = some e → (el e).coarser = none) :
    ∀ (n : Nat) (pre pre' : List Nat) (e : Nat) (post post' : List Nat), pre.length = n → ds = pre ++ e :: post → ds' = pre' ++ e :: post' →
      ds.head? = ds'.head? := by
  intro n
  induction n with
  | zero =>
    intro pre pre' e post post' hn h1 h2
    have : pre = [] := List.length_eq_zero_iff.mp hn
    subst this
    rcases List.eq_nil_or_concat pre' with h | ⟨p, c, h⟩
    · rw [h1, h2, h]; rfl
    · rw [h] at h2
      have h3 := ht e (by rw [h1]; rfl)
      have h4 := Path.coa_of (pre := p) (c := c) (e := e) (post := post') (by rw [h2] at hp'; simpa using hp')
      rw [h3] at h4; cases h4
  | succ n ih =>
    intro pre pre' e post post' hn h1 h2
    rcases List.eq_nil_or_concat pre with h | ⟨p, c, h⟩
    · rw [h] at hn; cases hn
    · rw [h] at h1
      have h4 := Path.coa_of (pre := p) (c := c) (e := e) (post := post) (by rw [h1] at hp; simpa using hp)
      rcases List.eq_nil_or_concat pre' with h' | ⟨p', c', h'⟩
      · rw [h'] at h2
        have h3 := ht' e (by rw [h2]; rfl)
        rw [h3] at h4; cases h4
      · rw [h'] at h2
        have h5 := Path.coa_of (pre := p') (c := c') (e := e) (post := post') (by rw [h2] at hp'; simpa using hp')
        rw [h4] at h5
        injection h5 with h5
        subst h5
        exact ih p p' c (e :: post) (e :: post') (by rw [h] at hn; simpa using hn) (by rw [h1]; simp) (by rw [h2]; simp)

/-- Different hierarchies share no element. -/
theorem disj {s : St T} (hI : Inv s) {h g : Nat} {H G : Hier} {ds ds' : List Nat} (hH : s.hs h = some H) (hG : s.hs g = some G)
    (hl : HasList s.el H ds) (hl' : HasList s.el G ds') {e : Nat} (he : e ∈ ds) (he' : e ∈ ds') : h = g := by
  obtain ⟨pre, post, h1⟩ := List.append_of_mem he
  obtain ⟨pre', post', h2⟩ := List.append_of_mem he'
  have := head_eq hl.path hl'.path (fun x hx => hl.top x (by rw [hl.coarsest, hx])) (fun x hx => hl'.top x (by rw [hl'.coarsest, hx]))
    _ pre pre' e post post' rfl h1 h2
  obtain ⟨c, hc⟩ : ∃ c, ds.head? = some c := by
    cases ds with
    | nil => cases he
    | cons c _ => exact ⟨c, rfl⟩
  exact hI.diff h g H G c hH hG (by rw [hl.coarsest, hc]) (by rw [hl'.coarsest, ← this, hc])

theorem Path.desc {s : St T} (hI : Inv s) {l : List Nat} (h : Path s.el l) : l.Pairwise (fun a b => b < a) := by
  induction h with
  | one _ => simp
  | cons h1 _ _ ih =>
    rename_i e f l
    have := (hI.fin_coa _ _ h1).2
    refine List.pairwise_cons.mpr ⟨?_, ih⟩
    intro x hx
    rcases List.mem_cons.mp hx with h | h
    · rw [h]; exact this
    · have := (List.pairwise_cons.mp ih).1 x h
      omega

theorem HasList.alloc {s : St T} (hI : Inv s) {H : Hier} {ds : List Nat} (hl : HasList s.el H ds) (hc : ∀ e, H.coarsest = some e → e < s.nEl) :
    ∀ e ∈ ds, e < s.nEl := hl.path.alloc hI (fun e he => hc e (by rw [hl.coarsest, he]))

/-- The elements of a hierarchy have been made. -/
structure Ok (s : St T) : Prop extends Inv s where
  coa_lt : ∀ h H e, s.hs h = some H → H.coarsest = some e → e < s.nEl

theorem Ok.mem_lt {s : St T} (hI : Ok s) {h : Nat} {H : Hier} {ds : List Nat} (hH : s.hs h = some H) (hl : HasList s.el H ds) :
    ∀ e ∈ ds, e < s.nEl := hl.alloc hI.toInv (fun e he => hI.coa_lt h H e hH he)

/-- What a user sees, from the elements. -/
theorem Ok.contents {s : St T} (hI : Ok s) {h : Nat} {H : Hier} {ds : List Nat} (hH : s.hs h = some H) (hl : HasList s.el H ds) :
    Contents s h ((ds.map (view s)).reverse) :=
  contents_of hI.toInv hH hl (fun e he => hI.has_obj e (hI.mem_lt hH hl e he))

theorem Ok.contents_iff {s : St T} (hI : Ok s) {h : Nat} {l : List Lev} (hc : Contents s h l) :
    (s.hs h = some ⟨none, none, 0⟩ ∧ l = []) ∨ ∃ H ds, s.hs h = some H ∧ HasList s.el H ds ∧ l = (ds.map (view s)).reverse := by
  have : ∃ H, s.hs h = some H := by
    cases hx : s.hs h with
    | some H => exact ⟨H, rfl⟩
    | none => have := hc.1; simp [levels, getH, hx] at this
  obtain ⟨H, hH⟩ := this
  rcases hI.hier h H hH with h0 | ⟨ds, hl⟩
  · rw [h0] at hH
    exact Or.inl ⟨hH, hc.inj (contents_empty hH)⟩
  · exact Or.inr ⟨H, ds, hH, hl, hc.inj (hI.contents hH hl)⟩

theorem HasList.same {el el' : Nat → El} {H : Hier} {ds : List Nat} (hl : HasList el H ds)
    (he : ∀ e ∈ ds, (el' e).finer = (el e).finer ∧ (el' e).coarser = (el e).coarser) : HasList el' H ds := by
  refine ⟨hl.path.congr (fun e hm => ⟨(he e hm).1, fun f hf => by rw [(he e hm).2, hf]⟩), hl.coarsest, hl.finest, hl.levels, ?_⟩
  intro e h
  rw [(he e ?_).2]
  · exact hl.top e h
  · rw [hl.coarsest] at h; exact List.mem_of_mem_head? h

theorem view_same {s t : St T} {e : Nat} (h : t.el e = s.el e) : view t e = view s e := by simp [view, h]

/-- Nothing changes for a hierarchy whose elements are left alone. -/
theorem frame_of {s t : St T} (hI : Ok s) (hJ : Ok t) {h : Nat} {l : List Lev} (hc : Contents s h l) (hh : t.hs h = s.hs h)
    (he : ∀ x ∈ l, t.el x.el = s.el x.el) : Contents t h l := by
  rcases hI.contents_iff hc with ⟨h1, h2⟩ | ⟨H, ds, h1, h2, h3⟩
  · rw [h2]; exact contents_empty (by rw [hh, h1])
  · have he' : ∀ e ∈ ds, t.el e = s.el e := fun e hm => he (view s e) (by rw [h3]; simp; exact ⟨e, hm, rfl⟩)
    have := hJ.contents (by rw [hh, h1]) (h2.same (el' := t.el) (fun e hm => by rw [he' e hm]; exact ⟨rfl, rfl⟩))
    rw [h3]
    convert this using 2
    exact List.map_congr_left (fun e hm => (view_same (he' e hm)).symm)

/-! ### The invariant is kept -/

theorem ok_init (d : T) : Ok (init d) := by
  refine ⟨⟨?_, ?_, ?_, ?_, ?_, ?_, ?_, ?_, ?_, ?_, ?_⟩, ?_⟩ <;> simp [init]

theorem ok_newObj {s : St T} (hI : Ok s) (v : T) : Ok (newObj v s) :=
  { hI with
    obj_lt := fun e o h => Nat.lt_succ_of_lt (hI.obj_lt e o h)
    red_lt := fun e o h => Nat.lt_succ_of_lt (hI.red_lt e o h) }

theorem ok_write {s : St T} (hI : Ok s) (o : Nat) (v : T) : Ok (write o v s) := { hI with }

theorem ok_newIt {s : St T} (hI : Ok s) (e : Option Nat) (he : ∀ x, e = some x → x < s.nEl) : Ok (newIt e s) :=
  { hI with
    it_lt := by
      intro i x h
      have h : upd s.its s.nI (some e) i = some (some x) := h
      by_cases hi : i = s.nI
      · rw [hi, upd_same] at h; injection h with h; exact he x h
      · rw [upd_ne _ _ hi] at h; exact hI.it_lt i x h
    it_fresh := by
      intro i h
      have h : s.nI + 1 ≤ i := h
      show upd s.its s.nI (some e) i = none
      rw [upd_ne _ _ (by omega)]; exact hI.it_fresh i (by omega) }

theorem ok_setIt {s : St T} (hI : Ok s) (j : Nat) (e : Option (Option Nat)) (hj : j < s.nI ∨ e = none) (he : ∀ x, e = some (some x) → x < s.nEl) :
    Ok (setIt j e s) :=
  { hI with
    it_lt := by
      intro i x h
      have h : upd s.its j e i = some (some x) := h
      by_cases hi : i = j
      · rw [hi, upd_same] at h; exact he x h
      · rw [upd_ne _ _ hi] at h; exact hI.it_lt i x h
    it_fresh := by
      intro i h
      have h : s.nI ≤ i := h
      show upd s.its j e i = none
      by_cases hi : i = j
      · rw [hi, upd_same]
        rcases hj with hj | hj
        · omega
        · exact hj
      · rw [upd_ne _ _ hi]; exact hI.it_fresh i h }

theorem upd_some {Y : Type} {f : Nat → Option Y} {i j : Nat} {v w : Y} (h : upd f i (some v) j = some w) : (j = i ∧ v = w) ∨ (j ≠ i ∧ f j = some w) := by
  by_cases e : j = i
  · rw [e, upd_same] at h; injection h with h; exact Or.inl ⟨e, h⟩
  · rw [upd_ne _ _ e] at h; exact Or.inr ⟨e, h⟩

theorem ok_destroy {s : St T} (hI : Ok s) (h : Nat) : Ok (setH h none s) := by
  have key : ∀ g G, upd s.hs h none g = some G → s.hs g = some G := by
    intro g G hg
    by_cases e : g = h
    · rw [e, upd_same] at hg; cases hg
    · rwa [upd_ne _ _ e] at hg
  exact { hI with
    hier := fun g G hg => hI.hier g G (key g G hg)
    diff := fun a b A B e ha hb => hI.diff a b A B e (key a A ha) (key b B hb)
    coa_lt := fun g G e hg => hI.coa_lt g G e (key g G hg)
    hs_fresh := by
      intro g hg
      show upd s.hs h none g = none
      by_cases e : g = h
      · rw [e, upd_same]
      · rw [upd_ne _ _ e]; exact hI.hs_fresh g hg }

theorem ok_newH {s : St T} (hI : Ok s) (H : Hier) (hH : H = ⟨none, none, 0⟩ ∨ ∃ ds, HasList s.el H ds)
    (hd : ∀ g G e, s.hs g = some G → H.coarsest = some e → G.coarsest ≠ some e) (hlt : ∀ e, H.coarsest = some e → e < s.nEl) : Ok (newH H s) :=
  { hI with
    hier := by
      intro g G hg
      rcases upd_some hg with ⟨_, e⟩ | ⟨_, e⟩
      · rw [← e]; exact hH
      · exact hI.hier g G e
    diff := by
      intro a b A B x ha hb hA hB
      rcases upd_some ha with ⟨ea, e⟩ | ⟨ea, e⟩ <;> rcases upd_some hb with ⟨eb, e'⟩ | ⟨eb, e'⟩
      · rw [ea, eb]
      · exact absurd hB (hd b B x e' (by rw [e]; exact hA))
      · exact absurd hA (hd a A x e (by rw [e']; exact hB))
      · exact hI.diff a b A B x e e' hA hB
    coa_lt := by
      intro g G x hg hx
      rcases upd_some hg with ⟨_, e⟩ | ⟨_, e⟩
      · exact hlt x (by rw [e]; exact hx)
      · exact hI.coa_lt g G x e hx
    hs_fresh := by
      intro g hg
      have hg : s.nH + 1 ≤ g := hg
      show upd s.hs s.nH (some H) g = none
      rw [upd_ne _ _ (by omega)]; exact hI.hs_fresh g (by omega) }

theorem ok_setRed {s : St T} (hI : Ok s) {e : Nat} (he : e < s.nEl) (o : Option Nat) (ho : ∀ x, o = some x → x < s.nOb) :
    Ok (setEl e (fun x => { x with red := o }) s) := by
  have key : ∀ a, (upd s.el e { s.el e with red := o } a).finer = (s.el a).finer ∧ (upd s.el e { s.el e with red := o } a).coarser = (s.el a).coarser ∧
      (upd s.el e { s.el e with red := o } a).obj = (s.el a).obj := by
    intro a
    by_cases h : a = e
    · rw [h, upd_same]; exact ⟨rfl, rfl, rfl⟩
    · rw [upd_ne _ _ h]; exact ⟨rfl, rfl, rfl⟩
  exact { hI with
    obj_lt := fun a x h => hI.obj_lt a x (by rw [← (key a).2.2]; exact h)
    red_lt := by
      intro a x h
      have h : (upd s.el e { s.el e with red := o } a).red = some x := h
      by_cases ha : a = e
      · rw [ha, upd_same] at h; exact ho x h
      · rw [upd_ne _ _ ha] at h; exact hI.red_lt a x h
    fresh := by
      intro a ha
      have ha : s.nEl ≤ a := ha
      show upd s.el e { s.el e with red := o } a = {}
      rw [upd_ne _ _ (by omega)]; exact hI.fresh a ha
    fin_coa := by
      intro a f h
      have h : (upd s.el e { s.el e with red := o } a).finer = some f := h
      rw [(key a).1] at h
      show (upd s.el e { s.el e with red := o } f).coarser = some a ∧ _
      rw [(key f).2.1]; exact hI.fin_coa a f h
    coa_fin := by
      intro a f h
      have h : (upd s.el e { s.el e with red := o } f).coarser = some a := h
      rw [(key f).2.1] at h
      show (upd s.el e { s.el e with red := o } a).finer = some f
      rw [(key a).1]; exact hI.coa_fin a f h
    has_obj := by
      intro a ha
      show (upd s.el e { s.el e with red := o } a).obj ≠ none
      rw [(key a).2.2]; exact hI.has_obj a ha
    hier := by
      intro h H hH
      rcases hI.hier h H hH with h0 | ⟨ds, hl⟩
      · exact Or.inl h0
      · exact Or.inr ⟨ds, hl.same (fun a _ => ⟨(key a).1, (key a).2.1⟩)⟩ }

theorem ok_alloc_one {s : St T} (hI : Ok s) (o : Nat) (ho : o < s.nOb) : Ok (newEl { obj := some o } s) := by
  have hn : ∀ a, a ≠ s.nEl → upd s.el s.nEl ({ obj := some o } : El) a = s.el a := fun a h => upd_ne _ _ h
  have hm : upd s.el s.nEl ({ obj := some o } : El) s.nEl = { obj := some o } := upd_same _ _ _
  exact { hI with
    obj_lt := by
      intro a x h
      have h : (upd s.el s.nEl ({ obj := some o } : El) a).obj = some x := h
      by_cases ha : a = s.nEl
      · rw [ha, hm] at h; injection h with h; show x < s.nOb; omega
      · rw [hn a ha] at h; exact hI.obj_lt a x h
    red_lt := by
      intro a x h
      have h : (upd s.el s.nEl ({ obj := some o } : El) a).red = some x := h
      by_cases ha : a = s.nEl
      · rw [ha, hm] at h; cases h
      · rw [hn a ha] at h; exact hI.red_lt a x h
    fresh := by
      intro a ha
      have ha : s.nEl + 1 ≤ a := ha
      show upd s.el s.nEl ({ obj := some o } : El) a = {}
      rw [hn a (by omega)]; exact hI.fresh a (by omega)
    fin_coa := by
      intro a f h
      have h : (upd s.el s.nEl ({ obj := some o } : El) a).finer = some f := h
      by_cases ha : a = s.nEl
      · rw [ha, hm] at h; cases h
      · rw [hn a ha] at h
        have := hI.fin_coa a f h
        refine ⟨?_, this.2⟩
        show (upd s.el s.nEl ({ obj := some o } : El) f).coarser = some a
        by_cases hf : f = s.nEl
        · rw [hf, hI.fresh s.nEl (le_refl _)] at this; cases this.1
        · rw [hn f hf]; exact this.1
    coa_fin := by
      intro a f h
      have h : (upd s.el s.nEl ({ obj := some o } : El) f).coarser = some a := h
      by_cases hf : f = s.nEl
      · rw [hf, hm] at h; cases h
      · rw [hn f hf] at h
        have := hI.coa_fin a f h
        show (upd s.el s.nEl ({ obj := some o } : El) a).finer = some f
        by_cases ha : a = s.nEl
        · rw [ha, hI.fresh s.nEl (le_refl _)] at this; cases this
        · rw [hn a ha]; exact this
    has_obj := by
      intro a ha
      have ha : a < s.nEl + 1 := ha
      show (upd s.el s.nEl ({ obj := some o } : El) a).obj ≠ none
      by_cases h : a = s.nEl
      · rw [h, hm]; simp
      · rw [hn a h]; exact hI.has_obj a (by omega)
    hier := by
      intro h H hH
      rcases hI.hier h H hH with h0 | ⟨ds, hl⟩
      · exact Or.inl h0
      · refine Or.inr ⟨ds, hl.same (fun a ha => ?_)⟩
        have := hI.mem_lt hH hl a ha
        show (upd s.el s.nEl ({ obj := some o } : El) a).finer = _ ∧ _
        rw [show (newEl { obj := some o } s).el a = s.el a from hn a (by omega), hn a (by omega)]
        exact ⟨rfl, rfl⟩
    it_lt := fun i e h => Nat.lt_succ_of_lt (hI.it_lt i e h)
    coa_lt := fun h H e a b => Nat.lt_succ_of_lt (hI.coa_lt h H e a b) }

end HList
end Istl
