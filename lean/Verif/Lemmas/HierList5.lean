import Verif.Lemmas.HierList4
import Mathlib.Data.List.Perm.Subperm

namespace Istl
namespace HList

variable {T : Type}

/-- The elements read off one by one. -/
theorem Copied.get {el : Nat → El} {ob : Nat → T} {t : St T} : ∀ {us : List Nat} {cur : Nat} {fin : Option Nat} {nb : Nat},
    Copied el ob t us cur fin nb → ∀ a, cur ≤ a → a < cur + us.length →
      ∃ o r, t.el a = ⟨if a + 1 < cur + us.length then some (a + 1) else none, if a = cur then fin else some (a - 1), some o, r⟩ ∧
        o < endOb el us nb ∧ ∀ x, r = some x → x < endOb el us nb
  | [], cur, _, _, _, a, h1, h2 => by simp at h2; omega
  | e :: us, cur, fin, nb, h, a, h1, h2 => by
    obtain ⟨g1, _, _, g4⟩ := h
    by_cases ha : a = cur
    · subst ha
      refine ⟨nb, if (el e).red.isSome then some (nb + 1) else none, ?_, ?_, ?_⟩
      · rw [g1, if_pos rfl]
        cases us with
        | nil => simp
        | cons b us => simp
      · have := le_endOb el us (nextOb el e nb)
        show nb < endOb el us (nextOb el e nb)
        unfold nextOb at this ⊢; omega
      · intro x hx
        have := le_endOb el us (nextOb el e nb)
        show x < endOb el us (nextOb el e nb)
        split at hx
        · rename_i hr
          injection hx with hx
          simp only [nextOb, hr, if_true] at this ⊢
          omega
        · cases hx
    · obtain ⟨o, r, k1, k2, k3⟩ := g4.get a (by omega) (by simp at h2; omega)
      refine ⟨o, r, ?_, k2, k3⟩
      rw [k1]
      simp only [List.length_cons, if_neg ha]
      have e1 : cur + 1 + us.length = cur + (us.length + 1) := by omega
      rw [e1]
      by_cases hb : a = cur + 1
      · rw [if_pos hb, hb]; rfl
      · rw [if_neg hb]

theorem Copied.path {el : Nat → El} {ob : Nat → T} {t : St T} : ∀ {us : List Nat} {cur nb : Nat} {post : List Nat},
    Copied el ob t us cur post.head? nb → us ≠ [] → (post ≠ [] → Path t.el post ∧ ∀ e, post.head? = some e → (t.el e).coarser = some cur) →
      Path t.el ((List.range' cur us.length).reverse ++ post)
  | [], _, _, _, _, h, _ => absurd rfl h
  | [e], cur, nb, post, h, _, hp => by
    obtain ⟨g1, _⟩ := h
    show Path t.el (cur :: post)
    cases post with
    | nil => exact .one (by rw [g1]; rfl)
    | cons a l => exact .cons (by rw [g1]; rfl) ((hp (by simp)).2 a rfl) (hp (by simp)).1
  | e :: f :: us, cur, nb, post, h, _, hp => by
    obtain ⟨g1, _, _, g4⟩ := h
    have hp' : Path t.el (cur :: post) := by
      cases post with
      | nil => exact .one (by rw [g1]; rfl)
      | cons a l => exact .cons (by rw [g1]; rfl) ((hp (by simp)).2 a rfl) (hp (by simp)).1
    have := Copied.path (post := cur :: post) g4 (by simp) (fun _ => ⟨hp', fun x hx => by
      injection hx with hx; rw [← hx, g1]; rfl⟩)
    rw [show (e :: f :: us).length = (f :: us).length + 1 from rfl, List.range'_succ, List.reverse_cons, List.append_assoc]
    exact this

theorem Copied.objects {el : Nat → El} {ob : Nat → T} {t : St T} : ∀ {us : List Nat} {cur : Nat} {fin : Option Nat} {nb : Nat},
    Copied el ob t us cur fin nb → objects ((List.range' cur us.length).map (view t)) = List.range' nb (endOb el us nb - nb)
  | [], _, _, nb, _ => by simp [HList.objects, endOb]
  | e :: us, cur, fin, nb, h => by
    obtain ⟨g1, _, _, g4⟩ := h
    have ih := g4.objects
    have hle := le_endOb el us (nextOb el e nb)
    rw [List.length_cons, List.range'_succ, List.map_cons, HList.objects, List.flatMap_cons]
    rw [show (List.flatMap (fun x : Lev => x.obj :: x.red.toList) (List.map (view t) (List.range' (cur + 1) us.length))) =
      List.range' (nextOb el e nb) (endOb el us (nextOb el e nb) - nextOb el e nb) from ih]
    show ((t.el cur).obj.getD 0 :: (t.el cur).red.toList) ++ _ = List.range' nb (endOb el us (nextOb el e nb) - nb)
    rw [g1]
    by_cases hr : (el e).red.isSome
    · simp only [nextOb, hr, if_true] at hle ⊢
      simp only [Option.getD_some, Option.toList_some, List.cons_append, List.nil_append]
      rw [show endOb el us (nb + 1 + 1) - nb = (endOb el us (nb + 1 + 1) - (nb + 1 + 1)) + 1 + 1 by omega, List.range'_succ, List.range'_succ]
    · simp only [nextOb, hr, Bool.false_eq_true, if_false, Nat.add_zero] at hle ⊢
      simp only [Option.getD_some, Option.toList_none, List.cons_append, List.nil_append]
      rw [show endOb el us (nb + 1) - nb = (endOb el us (nb + 1) - (nb + 1)) + 1 by omega, List.range'_succ]

theorem Copied.same {s t : St T} : ∀ {us : List Nat} {cur : Nat} {fin : Option Nat} {nb : Nat},
    Copied s.el s.ob t us cur fin nb → (∀ e ∈ us, (s.el e).obj ≠ none) →
      List.Forall₂ (SameLev s t) (us.map (view s)) ((List.range' cur us.length).map (view t))
  | [], _, _, _, _, _ => by simp
  | e :: us, cur, fin, nb, h, ho => by
    obtain ⟨g1, g2, g3, g4⟩ := h
    rw [List.length_cons, List.range'_succ, List.map_cons, List.map_cons]
    refine .cons ⟨?_, ?_, ?_⟩ (g4.same (fun x hx => ho x (by simp [hx])))
    · cases hx : (s.el e).obj with
      | none => exact absurd hx (ho e (by simp))
      | some x => simp only [view, g1, hx, Option.getD_some]; exact g2 x hx
    · simp only [view, g1]
      cases (s.el e).red <;> simp
    · intro a b ha hb
      simp only [view] at ha hb
      rw [g1] at hb
      simp only [ha, Option.isSome_some, if_true] at hb
      injection hb with hb
      rw [← hb]; exact g3 a ha

theorem up_of_path {el : Nat → El} : ∀ {ds : List Nat}, Path el ds → (∀ e ∈ ds, (el e).obj ≠ none) → (∀ e, ds.head? = some e → (el e).coarser = none) →
    Up el ds.reverse := by
  intro ds hp ho ht
  have gen : ∀ (n : Nat) (pre post : List Nat), pre.length = n → ds = pre ++ post → Up el pre.reverse := by
    intro n
    induction n with
    | zero => intro pre post hn _; rw [List.length_eq_zero_iff.mp hn]; trivial
    | succ n ih =>
      intro pre post hn hd
      rcases List.eq_nil_or_concat pre with h | ⟨p, e, h⟩
      · rw [h] at hn; cases hn
      · rw [List.concat_eq_append] at h
        subst h
        rw [List.reverse_append]
        refine ⟨?_, ho e (by rw [hd]; simp), ih p (e :: post) (by simp at hn; exact hn) (by rw [hd]; simp)⟩
        rcases List.eq_nil_or_concat p with h' | ⟨p', c, h'⟩
        · subst h'; simp; exact ht e (by rw [hd]; rfl)
        · rw [List.concat_eq_append] at h'
          subst h'
          rw [Path.coa_of (pre := p') (c := c) (e := e) (post := post) (by rw [hd] at hp; simpa using hp)]
          simp
  exact gen _ ds [] rfl (by simp)

theorem copy_ok {s : St T} (hI : Ok s) {h : Nat} {H : Hier} {ds : List Nat} (hH : s.hs h = some H) (hl : HasList s.el H ds) :
    ∃ t, copy h s = .ok t ∧ Ok t ∧ (∀ a, a < s.nEl → t.el a = s.el a) ∧ (∀ o, o < s.nOb → t.ob o = s.ob o) ∧ s.nOb ≤ t.nOb ∧
      (∀ g, g ≠ s.nH → t.hs g = s.hs g) ∧ t.its = s.its ∧ t.nI = s.nI ∧
      ∃ l', Contents t s.nH l' ∧ List.Forall₂ (SameLev s t) ((ds.map (view s)).reverse) l' ∧ (objects l').Nodup ∧
        (∀ o ∈ objects l', s.nOb ≤ o ∧ o < t.nOb) ∧ ∀ x ∈ l', s.nEl ≤ x.el := by
  have hm := hI.mem_lt hH hl
  have hne := hl.path.ne_nil
  have hoj : ∀ e ∈ ds, (s.el e).obj ≠ none := fun e he => hI.has_obj e (hm e he)
  have hup := up_of_path hl.path hoj (fun e he => hl.top e (by rw [hl.coarsest, he]))
  obtain ⟨f, us, hus⟩ : ∃ f us, ds.reverse = f :: us := by
    cases hr : ds.reverse with
    | nil => exact absurd (List.reverse_eq_nil_iff.mp hr) hne
    | cons f us => exact ⟨f, us, rfl⟩
  have hfin : H.finest = some f := by rw [hl.finest, List.getLast?_eq_head?_reverse, hus]; rfl
  have hmem : ∀ x ∈ f :: us, x ∈ ds := fun x hx => by rw [← hus] at hx; exact List.mem_reverse.mp hx
  have hlen : us.length + 1 = ds.length := by rw [← List.length_reverse (as := ds), hus]; rfl
  set s1 : St T := newEl {} s with hs1
  have s1el : ∀ a, s1.el a = s.el a := by
    intro a
    show upd s.el s.nEl _ a = _
    by_cases h : a = s.nEl
    · rw [h, upd_same, hI.fresh s.nEl (le_refl _)]
    · rw [upd_ne _ _ h]
  have s1el' : s1.el = s.el := funext s1el
  have hdl : ds.length ≤ s.nEl := by
    have hp := hl.path.desc hI.toInv
    have hnd : ds.Nodup := hp.imp (fun {a b} (h : b < a) => by omega)
    have := List.subperm_of_subset (l₁ := ds) (l₂ := List.range s.nEl) hnd (fun x hx => List.mem_range.mpr (hm x hx))
    simpa using this.length_le
  obtain ⟨t, h1, h2, h3, h4, h5, h6, h7, h8, h9, h10, h11⟩ := copyLoop_ok us f (s.nEl + 1) s.nEl none s1 (by omega)
    (by rw [s1el', ← hus]; exact hup) (fun x hx => hm x (hmem x hx))
    (fun x hx => by
      have := HasList.allAlive hH hl x (hmem x hx)
      exact alive_mono (n := s.nEl) (s := s) (t := s1) (fun a ha => by rw [hI.fresh a ha]) (fun a _ => s1el a) rfl rfl this)
    rfl (fun a ha => by rw [s1el]; exact hI.fresh a ha)
    (fun x hx => ⟨fun o ho => hI.obj_lt x o (by rw [← s1el x]; exact ho), fun o ho => hI.red_lt x o (by rw [← s1el x]; exact ho)⟩)
  rw [s1el'] at h2 h4 h5
  have hnO : s.nOb ≤ t.nOb := by rw [h4]; exact le_endOb _ _ _
  have hget := h2.get
  have hten : t.nEl = s.nEl + (f :: us).length := by rw [h3]; simp; omega
  have hzf : ∀ a, t.nEl ≤ a → t.el a = {} := h6
  -- the invariant of the new elements
  have hokt : Ok t := by
    refine { obj_lt := ?_, red_lt := ?_, fresh := hzf, fin_coa := ?_, coa_fin := ?_, has_obj := ?_, hier := ?_, diff := ?_, it_lt := ?_, hs_fresh := ?_, it_fresh := ?_, coa_lt := ?_ }
    · intro e o he
      by_cases ha : e < s.nEl
      · rw [h5 e ha] at he; exact lt_of_lt_of_le (hI.obj_lt e o he) hnO
      · by_cases hb : e < t.nEl
        · obtain ⟨o', r, k1, k2, _⟩ := hget e (by omega) (by omega)
          rw [k1] at he; injection he with he
          rw [h4, ← he]; exact k2
        · rw [hzf e (by omega)] at he; cases he
    · intro e o he
      by_cases ha : e < s.nEl
      · rw [h5 e ha] at he; exact lt_of_lt_of_le (hI.red_lt e o he) hnO
      · by_cases hb : e < t.nEl
        · obtain ⟨o', r, k1, _, k3⟩ := hget e (by omega) (by omega)
          rw [k1] at he
          rw [h4]; exact k3 o he
        · rw [hzf e (by omega)] at he; cases he
    · intro e g he
      by_cases ha : e < s.nEl
      · rw [h5 e ha] at he
        have := hI.fin_coa e g he
        rw [h5 g (by omega)]; exact this
      · by_cases hb : e < t.nEl
        · obtain ⟨o', r, k1, _, _⟩ := hget e (by omega) (by omega)
          rw [k1] at he
          dsimp only at he
          split at he
          · cases he
          · injection he with he
            obtain ⟨o2, r2, k1', _, _⟩ := hget g (by omega) (by omega)
            rw [k1']
            dsimp only
            rw [if_pos (by omega)]
            exact ⟨by rw [← he]; congr 1; omega, by omega⟩
        · rw [hzf e (by omega)] at he; cases he
    · intro e g he
      by_cases ha : g < s.nEl
      · rw [h5 g ha] at he
        have := hI.coa_fin e g he
        have hlt : e < s.nEl := by
          by_contra hc
          rw [hI.fresh e (by omega)] at this; cases this
        rw [h5 e hlt]; exact this
      · by_cases hb : g < t.nEl
        · obtain ⟨o', r, k1, _, _⟩ := hget g (by omega) (by omega)
          rw [k1] at he
          dsimp only at he
          split at he
          · rename_i hlt
            injection he with he
            obtain ⟨o2, r2, k1', _, _⟩ := hget e (by omega) (by omega)
            rw [k1']
            dsimp only
            rw [if_neg (by omega), ← he]; rfl
          · cases he
        · rw [hzf g (by omega)] at he; cases he
    · intro e he
      by_cases ha : e < s.nEl
      · rw [h5 e ha]; exact hI.has_obj e ha
      · obtain ⟨o', r, k1, _, _⟩ := hget e (by omega) (by omega)
        rw [k1]; simp
    · intro g G hG
      rw [h8] at hG
      rcases hI.hier g G hG with h0 | ⟨ds', hl'⟩
      · exact Or.inl h0
      · refine Or.inr ⟨ds', hl'.same (fun e he => ?_)⟩
        rw [h5 e (hI.mem_lt hG hl' e he)]; exact ⟨rfl, rfl⟩
    · intro a b A B x ha hb
      rw [h8] at ha hb
      exact hI.diff a b A B x ha hb
    · intro i e hi
      rw [h9] at hi
      have := hI.it_lt i e hi
      omega
    · intro g hg
      rw [h8]; rw [h10] at hg; exact hI.hs_fresh g hg
    · intro i hi
      rw [h9]; rw [h11] at hi; exact hI.it_fresh i hi
    · intro g G e hG he
      rw [h8] at hG
      have := hI.coa_lt g G e hG he
      omega
  set ds' := (List.range' s.nEl (f :: us).length).reverse with hds'
  have hl' : HasList t.el ⟨some s.nEl, some (s.nEl + us.length), H.levels⟩ ds' := by
    refine ⟨?_, ?_, ?_, ?_, ?_⟩
    · have := h2.path (post := []) (by simp) (by simp)
      rwa [List.append_nil] at this
    · rw [hds', List.head?_reverse, List.getLast?_range']
      simp
    · rw [hds', List.getLast?_reverse, List.head?_range']
      simp
    · rw [hds']
      simp only [List.length_reverse, List.length_range', List.length_cons]
      rw [hl.levels, ← hlen]
    · intro e he
      injection he with he
      obtain ⟨o', r, k1, _, _⟩ := hget e (by omega) (by rw [List.length_cons]; omega)
      rw [k1]
      dsimp only
      rw [if_neg (by rw [List.length_cons]; omega)]
  have hfinal : Ok (newH ⟨some s.nEl, some (s.nEl + us.length), H.levels⟩ t) := by
    refine ok_newH hokt _ (Or.inr ⟨ds', hl'⟩) ?_ ?_
    · intro g G e hG he hc
      injection he with he
      rw [h8] at hG
      have := hI.coa_lt g G e hG hc
      omega
    · intro e he
      injection he with he
      rw [h3]; omega
  refine ⟨_, ?_, hfinal, h5, h7, hnO, ?_, h9, h11, _, hfinal.contents (h := s.nH) (ds := ds') ?_ hl', ?_, ?_, ?_, ?_⟩
  · simp only [copy, getH, hH, Res.ok_bind, hfin]
    show (copyLoop (s.nEl + 1) (some f) s.nEl none s1 >>= _) = _
    rw [h1]; rfl
  · intro g hg
    show upd t.hs t.nH _ g = _
    rw [h10, h8]
    exact upd_ne _ _ hg
  · show upd t.hs t.nH _ s.nH = _
    rw [h10]; exact upd_same _ _ _
  all_goals
    have hrev : ((ds'.map (view (newH ⟨some s.nEl, some (s.nEl + us.length), H.levels⟩ t))).reverse) =
        (List.range' s.nEl (f :: us).length).map (view t) := by
      rw [← List.map_reverse, hds', List.reverse_reverse]; rfl
    rw [hrev]
  · rw [← List.map_reverse, hus]
    show List.Forall₂ (SameLev s t) _ _
    exact Copied.same (s := s) (t := t) h2 (fun e he => hoj e (hmem e he))
  · rw [h2.objects]; exact List.nodup_range'
  · intro o ho
    rw [h2.objects, List.mem_range'_1] at ho
    show s.nOb ≤ o ∧ o < t.nOb
    have : s1.nOb = s.nOb := rfl
    rw [h4]; omega
  · intro x hx
    obtain ⟨e, he, rfl⟩ := List.mem_map.mp hx
    rw [List.mem_range'_1] at he
    exact he.1

end HList
end Istl
