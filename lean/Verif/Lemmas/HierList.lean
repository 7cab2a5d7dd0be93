import Verif.Spec.HierList
import Mathlib.Tactic.Cases

namespace Istl
namespace HList

variable {T : Type}

theorem upd_same {Y : Type} (f : Nat → Y) (i : Nat) (v : Y) : upd f i v i = v := if_pos rfl
theorem upd_ne {Y : Type} (f : Nat → Y) {i j : Nat} (v : Y) (h : j ≠ i) : upd f i v j = f j := if_neg h

/-- From coarse to fine. -/
inductive Path (el : Nat → El) : List Nat → Prop where
  | one {e : Nat} : (el e).finer = none → Path el [e]
  | cons {e f : Nat} {l : List Nat} : (el e).finer = some f → (el f).coarser = some e → Path el (f :: l) → Path el (e :: f :: l)

/-- The elements of a hierarchy, from coarse to fine. -/
structure HasList (el : Nat → El) (H : Hier) (ds : List Nat) : Prop where
  path : Path el ds
  coarsest : H.coarsest = ds.head?
  finest : H.finest = ds.getLast?
  levels : H.levels = ds.length
  top : ∀ e, H.coarsest = some e → (el e).coarser = none

structure Inv (s : St T) : Prop where
  obj_lt : ∀ e o, (s.el e).obj = some o → o < s.nOb
  red_lt : ∀ e o, (s.el e).red = some o → o < s.nOb
  fresh : ∀ e, s.nEl ≤ e → s.el e = {}
  fin_coa : ∀ e f, (s.el e).finer = some f → (s.el f).coarser = some e ∧ f < e
  coa_fin : ∀ e f, (s.el f).coarser = some e → (s.el e).finer = some f
  has_obj : ∀ e, e < s.nEl → (s.el e).obj ≠ none
  hier : ∀ h H, s.hs h = some H → H = ⟨none, none, 0⟩ ∨ ∃ ds, HasList s.el H ds
  diff : ∀ h g H G e, s.hs h = some H → s.hs g = some G → H.coarsest = some e → G.coarsest = some e → h = g
  it_lt : ∀ i e, s.its i = some (some e) → e < s.nEl
  hs_fresh : ∀ h, s.nH ≤ h → s.hs h = none
  it_fresh : ∀ i, s.nI ≤ i → s.its i = none

theorem Path.ne_nil {el : Nat → El} {l : List Nat} (h : Path el l) : l ≠ [] := by cases h <;> simp

theorem Path.congr {el el' : Nat → El} {l : List Nat} (h : Path el l)
    (he : ∀ e ∈ l, (el' e).finer = (el e).finer ∧ ∀ f, (el e).coarser = some f → (el' e).coarser = some f) : Path el' l := by
  induction h with
  | one h => exact .one (by rw [(he _ (by simp)).1, h])
  | cons h1 h2 _ ih =>
    exact .cons (by rw [(he _ (by simp)).1, h1]) ((he _ (by simp)).2 _ h2) (ih (fun e hm => he e (by simp at hm ⊢; tauto)))

theorem Path.reach {el : Nat → El} {e : Nat} {l : List Nat} (h : Path el (e :: l)) : ∀ x ∈ e :: l, Reach el e x := by
  generalize hk : e :: l = k at h
  induction h generalizing e l with
  | one _ => intro x hx; injection hk with h1 h2; subst h1; simp at hx; subst hx; exact .refl
  | cons h1 _ _ ih =>
    injection hk with h1' h2'
    subst h1'
    intro x hx
    rcases List.mem_cons.mp hx with h | h
    · rw [h]; exact .refl
    · exact Relation.ReflTransGen.head h1 (ih rfl x h)

theorem Path.alloc {s : St T} (hI : Inv s) {l : List Nat} (h : Path s.el l) (hh : ∀ e, l.head? = some e → e < s.nEl) : ∀ e ∈ l, e < s.nEl := by
  induction h with
  | one _ => intro e he; simp at he; subst he; exact hh _ rfl
  | cons h1 h2 hp' ih =>
    rename_i e f l
    have h0 := hh e rfl
    intro x hx
    rcases List.mem_cons.mp hx with h | h
    · rw [h]; exact h0
    · refine ih (fun y hy => ?_) x h
      simp at hy
      have := (hI.fin_coa _ _ h1).2
      omega

theorem Path.inj {el : Nat → El} : ∀ {l l' : List Nat}, Path el l → Path el l' → l.head? = l'.head? → l = l' := by
  intro l l' h h'
  induction h generalizing l' with
  | one h =>
    intro he
    cases h' with
    | one _ => simp at he; rw [he]
    | cons h1 _ _ => simp at he; subst he; rw [h] at h1; cases h1
  | cons h1 _ _ ih =>
    intro he
    cases h' with
    | one h => simp at he; subst he; rw [h] at h1; cases h1
    | cons g1 _ g3 =>
      simp at he; subst he
      rw [h1] at g1
      injection g1 with g1
      subst g1
      rw [ih g3 rfl]

theorem HasList.allAlive {s : St T} {h : Nat} {H : Hier} {ds : List Nat} (hH : s.hs h = some H) (hl : HasList s.el H ds) :
    ∀ e ∈ ds, Alive s e := by
  intro e he
  cases ds with
  | nil => cases he
  | cons c ds => exact Or.inl ⟨h, H, c, hH, Or.inr hl.coarsest, hl.path.reach e he⟩

theorem lock_alive {s : St T} {e : Nat} (h : Alive s e) : lock s (some e) = some e := if_pos h
theorem lock_none (s : St T) : lock s none = none := rfl

/-- The view of a level. -/
noncomputable def view (s : St T) (e : Nat) : Lev := ⟨e, (s.el e).obj.getD 0, (s.el e).red⟩

theorem shows_view {s : St T} {i e : Nat} (h : s.its i = some (some e)) (ho : (s.el e).obj ≠ none) : Shows s i (view s e) := by
  refine ⟨h, ?_, ?_, ?_⟩
  · simp only [itObj, getIt, h, Res.ok_bind]
    show deref _ = _
    cases hx : (s.el e).obj with
    | none => exact absurd hx ho
    | some o => simp [deref, view, hx]
  · simp only [isRedistributed, getIt, h, Res.ok_bind]; rfl
  · intro o hr
    simp only [getRedistributed, getIt, h, Res.ok_bind]
    show deref _ = _
    rw [show (s.el e).red = some o from hr]; rfl

theorem Shows.inj {s : St T} {i : Nat} {x y : Lev} (hx : Shows s i x) (hy : Shows s i y) : x = y := by
  obtain ⟨a1, a2, a3, a4⟩ := hx
  obtain ⟨b1, b2, b3, b4⟩ := hy
  rw [a1] at b1; rw [a2] at b2; rw [a3] at b3
  injection b1 with b1; injection b1 with b1; injection b2 with b2; injection b3 with b3
  cases x with | mk xe xo xr => cases y with | mk ye yo yr =>
  dsimp only at *
  subst b1; subst b2
  cases xr with
  | none => cases yr with
    | none => rfl
    | some _ => simp at b3
  | some r => cases yr with
    | none => simp at b3
    | some r' =>
      have := a4 r rfl
      rw [b4 r' rfl] at this
      injection this with this
      rw [this]

theorem WalkUp.inj {s : St T} {i : Nat} {l l' : List Lev} (h : WalkUp i s l) (h' : WalkUp i s l') : l = l' := by
  induction h generalizing l' with
  | stop h =>
    cases h' with
    | stop _ => rfl
    | go g _ _ => rw [g.1] at h; cases h
  | go g1 g2 _ ih =>
    cases h' with
    | stop h => rw [g1.1] at h; cases h
    | go k1 k2 k3 =>
      rw [g2] at k2; injection k2 with k2; subst k2
      rw [g1.inj k1, ih k3]

/-- Walking to the coarsest level. -/
theorem walkUp_of {s : St T} {ds : List Nat} (hp : Path s.el ds) (htop : ∀ e, ds.head? = some e → (s.el e).coarser = none)
    (hal : ∀ (t : St T), t.el = s.el → t.hs = s.hs → ∀ e ∈ ds, Alive t e) (ho : ∀ e ∈ ds, (s.el e).obj ≠ none) (i : Nat) :
    ∀ (n : Nat) (pre : List Nat), pre.length = n → ∀ e post (t : St T), ds = pre ++ e :: post → t.el = s.el → t.hs = s.hs →
      t.its i = some (some e) → WalkUp i t ((e :: pre.reverse).map (view s)) := by
  intro n
  induction n with
  | zero =>
    intro pre hn e post t hd he hh hi
    have : pre = [] := List.length_eq_zero_iff.mp hn
    subst this
    have hv : view t e = view s e := by simp [view, he]
    refine .go (s' := setIt i (some none) t) (by rw [← hv]; exact shows_view hi (by rw [he]; exact ho e (by rw [hd]; simp))) ?_ (.stop (upd_same _ _ _))
    simp only [itInc, getIt, hi, Res.ok_bind, he]
    rw [htop e (by rw [hd]; rfl)]; rfl
  | succ n ih =>
    intro pre hn e post t hd he hh hi
    have hne : pre ≠ [] := by intro h; rw [h] at hn; cases hn
    obtain ⟨pre', c, hc⟩ : ∃ p' c, pre = p' ++ [c] := ⟨pre.dropLast, pre.getLast hne, (List.dropLast_append_getLast hne).symm⟩
    subst hc
    have hd' : ds = pre' ++ c :: (e :: post) := by rw [hd]; simp
    have hcoa : (s.el e).coarser = some c := by
      rw [hd'] at hp
      clear hd hd' ih hn htop hal ho hne
      induction pre' with
      | nil => cases hp with | cons _ h2 _ => exact h2
      | cons a p ihp =>
        cases p with
        | nil => cases hp with | cons _ _ h3 => exact ihp h3
        | cons b p => cases hp with | cons _ _ h3 => exact ihp h3
    have hv : view t e = view s e := by simp [view, he]
    rw [show ((e :: (pre' ++ [c]).reverse).map (view s)) = view s e :: ((c :: pre'.reverse).map (view s)) by simp]
    refine .go (s' := setIt i (some (some c)) t) (by rw [← hv]; exact shows_view hi (by rw [he]; exact ho e (by rw [hd]; simp))) ?_ ?_
    · simp only [itInc, getIt, hi, Res.ok_bind, he]
      rw [hcoa, lock_alive (hal t he hh c (by rw [hd']; simp))]
    · exact ih pre' (by simp at hn; exact hn) c (e :: post) _ hd' he hh (upd_same _ _ _)

theorem walkDown_of {s : St T} {ds : List Nat} (hp : Path s.el ds) (ho : ∀ e ∈ ds, (s.el e).obj ≠ none) (i : Nat) :
    ∀ (t : St T), t.el = s.el → t.its i = some ds.head? → WalkDown i t (ds.map (view s)) := by
  induction hp with
  | one h =>
    rename_i e
    intro t he hi
    have hv : view t e = view s e := by simp [view, he]
    refine .go (s' := setIt i (some none) t) (by rw [← hv]; exact shows_view hi (by rw [he]; exact ho e (by simp))) ?_ (.stop (upd_same _ _ _))
    simp only [itDec, getIt, show t.its i = some (some e) from hi, Res.ok_bind, he, h]
  | cons h1 h2 hp' ih =>
    rename_i e f l
    intro t he hi
    have hv : view t e = view s e := by simp [view, he]
    refine .go (s' := setIt i (some (some f)) t) (by rw [← hv]; exact shows_view hi (by rw [he]; exact ho e (by simp))) ?_
      (ih (fun e hm => ho e (by simp at hm ⊢; tauto)) _ he (upd_same _ _ _))
    simp only [itDec, getIt, show t.its i = some (some e) from hi, Res.ok_bind, he, h1]

theorem contents_of {s : St T} (hI : Inv s) {h : Nat} {H : Hier} {ds : List Nat} (hH : s.hs h = some H) (hl : HasList s.el H ds)
    (ho : ∀ e ∈ ds, (s.el e).obj ≠ none) : Contents s h ((ds.map (view s)).reverse) := by
  refine ⟨?_, ⟨newIt H.finest s, ?_, ?_⟩, ⟨newIt H.coarsest s, ?_, ?_⟩⟩
  · simp [levels, getH, hH, hl.levels, Res.ok_bind]
  · simp [itFinest, getH, hH, Res.ok_bind]
  · have hne := hl.path.ne_nil
    have e1 : ds = ds.dropLast ++ ds.getLast hne :: [] := (List.dropLast_append_getLast hne).symm
    have := walkUp_of hl.path (fun e he => hl.top e (by rw [hl.coarsest, he])) (by
      intro t he hh
      exact HasList.allAlive (s := t) (h := h) (by rw [hh, hH]) (by rw [he]; exact hl)) ho s.nI _ ds.dropLast rfl (ds.getLast hne) []
      (newIt H.finest s) e1 rfl rfl (by
        show upd s.its s.nI (some H.finest) s.nI = _
        rw [upd_same, hl.finest, List.getLast?_eq_some_getLast hne])
    rw [← List.map_reverse]
    have e2 : ds.reverse = ds.getLast hne :: ds.dropLast.reverse := by
      conv_lhs => rw [e1]
      simp
    rw [e2]; exact this
  · simp [itCoarsest, getH, hH, Res.ok_bind]
  · rw [List.reverse_reverse]
    exact walkDown_of hl.path ho s.nI _ rfl (by
      show upd s.its s.nI (some H.coarsest) s.nI = _
      rw [upd_same, hl.coarsest])

theorem contents_empty {s : St T} {h : Nat} (hH : s.hs h = some ⟨none, none, 0⟩) : Contents s h [] := by
  refine ⟨by simp [levels, getH, hH, Res.ok_bind], ⟨newIt none s, by simp [itFinest, getH, hH, Res.ok_bind], .stop (upd_same _ _ _)⟩,
    ⟨newIt none s, by simp [itCoarsest, getH, hH, Res.ok_bind], .stop (upd_same _ _ _)⟩⟩

theorem Contents.inj {s : St T} {h : Nat} {l l' : List Lev} (hl : Contents s h l) (hl' : Contents s h l') : l = l' := by
  obtain ⟨_, ⟨s1, a1, a2⟩, _⟩ := hl
  obtain ⟨_, ⟨s2, b1, b2⟩, _⟩ := hl'
  rw [a1] at b1; injection b1 with b1; subst b1
  exact a2.inj b2

end HList
end Istl
