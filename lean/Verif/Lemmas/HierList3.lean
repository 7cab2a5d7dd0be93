import Verif.Lemmas.HierList2

namespace Istl
namespace HList

variable {T : Type}

theorem ok_setH {s : St T} (hI : Ok s) (h : Nat) (hh : h < s.nH) (H : Hier) (hH : H = ⟨none, none, 0⟩ ∨ ∃ ds, HasList s.el H ds)
    (hd : ∀ g G e, g ≠ h → s.hs g = some G → H.coarsest = some e → G.coarsest ≠ some e) (hlt : ∀ e, H.coarsest = some e → e < s.nEl) :
    Ok (setH h (some H) s) :=
  { hI with
    hier := by
      intro g G hg
      rcases upd_some hg with ⟨_, e⟩ | ⟨_, e⟩
      · rw [← e]; exact hH
      · exact hI.hier g G e
    diff := by
      intro a b A B x ha hb hA hB
      rcases upd_some ha with ⟨ea, e⟩ | ⟨ea, e⟩ <;> rcases upd_some hb with ⟨eb, e'⟩ | ⟨eb, e'⟩
      · rw [ea, eb]
      · exact absurd hB (hd b B x eb e' (by rw [e]; exact hA))
      · exact absurd hA (hd a A x ea e (by rw [e']; exact hB))
      · exact hI.diff a b A B x e e' hA hB
    coa_lt := by
      intro g G x hg hx
      rcases upd_some hg with ⟨_, e⟩ | ⟨_, e⟩
      · exact hlt x (by rw [e]; exact hx)
      · exact hI.coa_lt g G x e hx
    hs_fresh := by
      intro g hg
      have hg : s.nH ≤ g := hg
      show upd s.hs h (some H) g = none
      rw [upd_ne _ _ (by omega)]; exact hI.hs_fresh g (by omega) }

theorem hs_lt {s : St T} (hI : Ok s) {h : Nat} {H : Hier} (hH : s.hs h = some H) : h < s.nH := by
  by_contra hc
  rw [hI.hs_fresh h (by omega)] at hH; cases hH

theorem it_lt' {s : St T} (hI : Ok s) {i : Nat} {e : Option Nat} (hH : s.its i = some e) : i < s.nI := by
  by_contra hc
  rw [hI.it_fresh i (by omega)] at hH; cases hH

theorem hasList_one {el : Nat → El} {e : Nat} (h1 : (el e).finer = none) (h2 : (el e).coarser = none) : HasList el ⟨some e, some e, 1⟩ [e] :=
  ⟨.one h1, rfl, rfl, rfl, fun x hx => by injection hx with hx; rw [← hx]; exact h2⟩

theorem ok_mkFirst {s : St T} (hI : Ok s) (o : Nat) (ho : o < s.nOb) : Ok (mkFirst o s) := by
  refine ok_newH (ok_alloc_one hI o ho) _ (Or.inr ⟨[s.nEl], hasList_one ?_ ?_⟩) ?_ ?_
  · show (upd s.el s.nEl _ s.nEl).finer = none; rw [upd_same]
  · show (upd s.el s.nEl _ s.nEl).coarser = none; rw [upd_same]
  · intro g G e hG he hc
    injection he with he
    have : e < s.nEl := hI.coa_lt g G e hG hc
    omega
  · intro e he
    injection he with he
    show e < s.nEl + 1
    omega

/-- `addCoarser` to an empty hierarchy. -/
theorem ok_addFirst {s : St T} (hI : Ok s) {h : Nat} (hh : h < s.nH) (v : T) :
    Ok (setH h (some ⟨some s.nEl, some s.nEl, 1⟩) (newEl { obj := some s.nOb } (newObj v s))) := by
  refine ok_setH (ok_alloc_one (ok_newObj hI v) s.nOb (Nat.lt_succ_self _)) h hh _ (Or.inr ⟨[s.nEl], hasList_one ?_ ?_⟩) ?_ ?_
  · show (upd s.el s.nEl _ s.nEl).finer = none; rw [upd_same]
  · show (upd s.el s.nEl _ s.nEl).coarser = none; rw [upd_same]
  · intro g G e _ hG he hc
    injection he with he
    have : e < s.nEl := hI.coa_lt g G e hG hc
    omega
  · intro e he
    injection he with he
    show e < s.nEl + 1
    omega

/-- The state after `addCoarser` to a hierarchy with levels. -/
def added (h : Nat) (H : Hier) (old : Nat) (v : T) (s : St T) : St T :=
  setH h (some { H with coarsest := some s.nEl, levels := H.levels + 1 }) (setEl old (fun x => { x with coarser := some s.nEl })
    (setEl s.nEl (fun x => { x with obj := some s.nOb }) (newObj v
      (setH h (some { H with coarsest := some s.nEl }) (newEl { finer := some old } s)))))

theorem added_el {s : St T} {h : Nat} {H : Hier} {old : Nat} {v : T} (ho : old < s.nEl) (a : Nat) :
    (added h H old v s).el a = if a = old then { s.el old with coarser := some s.nEl } else
      if a = s.nEl then { finer := some old, obj := some s.nOb } else s.el a := by
  show upd (upd (upd s.el s.nEl _) s.nEl _) old _ a = _
  by_cases h1 : a = old
  · rw [h1, upd_same, if_pos rfl]
    show ({ upd (upd s.el s.nEl _) s.nEl _ old with coarser := some s.nEl } : El) = _
    rw [upd_ne _ _ (by omega), upd_ne _ _ (by omega)]
  · rw [upd_ne _ _ h1, if_neg h1]
    by_cases h2 : a = s.nEl
    · rw [h2, upd_same, if_pos rfl]
      show ({ upd s.el s.nEl _ s.nEl with obj := some s.nOb } : El) = _
      rw [upd_same]
    · rw [upd_ne _ _ h2, upd_ne _ _ h2, if_neg h2]

theorem added_hs {s : St T} {h : Nat} {H : Hier} {old : Nat} {v : T} (g : Nat) :
    (added h H old v s).hs g = if g = h then some { H with coarsest := some s.nEl, levels := H.levels + 1 } else s.hs g := by
  show upd (upd s.hs h _) h _ g = _
  by_cases h1 : g = h
  · rw [h1, upd_same, if_pos rfl]
  · rw [upd_ne _ _ h1, upd_ne _ _ h1, if_neg h1]

theorem added_list {s : St T} (hI : Ok s) {h : Nat} {H : Hier} {old : Nat} (hH : s.hs h = some H) (hc : H.coarsest = some old) {ds : List Nat}
    (hl : HasList s.el H ds) (v : T) :
    HasList (added h H old v s).el { H with coarsest := some s.nEl, levels := H.levels + 1 } (s.nEl :: ds) := by
  have ho := hI.coa_lt h H old hH hc
  have hm := hI.mem_lt hH hl
  obtain ⟨ds', hd⟩ : ∃ ds', ds = old :: ds' := by
    have := hl.coarsest
    rw [hc] at this
    cases ds with
    | nil => cases this
    | cons a l => injection this with this; exact ⟨l, by rw [this]⟩
  have hp : Path (added h H old v s).el ds := hl.path.congr (fun e he => by
    have := hm e he
    rw [added_el ho]
    split
    · rename_i h1; subst h1
      refine ⟨rfl, fun f hf => ?_⟩
      rw [hl.top _ hc] at hf; cases hf
    · rw [if_neg (by omega)]; exact ⟨rfl, fun _ h => h⟩)
  refine ⟨?_, rfl, ?_, by rw [hl.levels]; rfl, ?_⟩
  · rw [hd] at hp ⊢
    refine .cons ?_ ?_ hp
    · rw [added_el ho, if_neg (by omega), if_pos rfl]
    · rw [added_el ho, if_pos rfl]
  · rw [hd]
    show H.finest = _
    rw [hl.finest, hd]; rfl
  · intro e he
    injection he with he
    rw [← he, added_el ho, if_neg (by omega), if_pos rfl]

theorem ok_added {s : St T} (hI : Ok s) {h : Nat} {H : Hier} {old : Nat} (hH : s.hs h = some H) (hc : H.coarsest = some old) (v : T) :
    Ok (added h H old v s) := by
  have ho := hI.coa_lt h H old hH hc
  obtain ⟨ds, hl⟩ : ∃ ds, HasList s.el H ds := by
    rcases hI.hier h H hH with h0 | h0
    · rw [h0] at hc; cases hc
    · exact h0
  have htop := hl.top old hc
  have hz := hI.fresh s.nEl (le_refl _)
  refine { obj_lt := ?_, red_lt := ?_, fresh := ?_, fin_coa := ?_, coa_fin := ?_, has_obj := ?_, hier := ?_, diff := ?_, it_lt := ?_, hs_fresh := ?_, it_fresh := ?_, coa_lt := ?_ }
  · intro e o he
    show o < s.nOb + 1
    rw [added_el ho] at he
    split at he
    · exact Nat.lt_succ_of_lt (hI.obj_lt old o he)
    · split at he
      · injection he with he; omega
      · exact Nat.lt_succ_of_lt (hI.obj_lt e o he)
  · intro e o he
    show o < s.nOb + 1
    rw [added_el ho] at he
    split at he
    · exact Nat.lt_succ_of_lt (hI.red_lt old o he)
    · split at he
      · cases he
      · exact Nat.lt_succ_of_lt (hI.red_lt e o he)
  · intro e he
    have he : s.nEl + 1 ≤ e := he
    rw [added_el ho, if_neg (by omega), if_neg (by omega)]; exact hI.fresh e (by omega)
  · intro e f he
    rw [added_el ho] at he
    have gen : (s.el e).finer = some f → ((added h H old v s).el f).coarser = some e ∧ f < e := by
      intro he
      have := hI.fin_coa e f he
      refine ⟨?_, this.2⟩
      rw [added_el ho]
      split
      · rename_i h1; rw [h1, htop] at this; cases this.1
      · split
        · rename_i h1; rw [h1, hz] at this; cases this.1
        · exact this.1
    split at he
    · rename_i h1; rw [h1] at gen ⊢; exact gen he
    · split at he
      · rename_i h1
        injection he with he
        rw [← he, h1]
        refine ⟨by rw [added_el ho, if_pos rfl], ho⟩
      · exact gen he
  · intro e f he
    rw [added_el ho] at he
    split at he
    · rename_i h1
      injection he with he
      rw [← he, h1, added_el ho, if_neg (by omega), if_pos rfl]
    · split at he
      · cases he
      · have := hI.coa_fin e f he
        rw [added_el ho]
        split
        · rename_i h1; rw [h1] at this; exact this
        · split
          · rename_i h1; rw [h1, hz] at this; cases this
          · exact this
  · intro e he
    have he : e < s.nEl + 1 := he
    rw [added_el ho]
    split
    · exact hI.has_obj old ho
    · split
      · simp
      · exact hI.has_obj e (by omega)
  · intro g G hg
    rw [added_hs] at hg
    split at hg
    · injection hg with hg
      rw [← hg]
      exact Or.inr ⟨s.nEl :: ds, added_list hI hH hc hl v⟩
    · rename_i hne
      rcases hI.hier g G hg with h0 | ⟨ds', hl'⟩
      · exact Or.inl h0
      · refine Or.inr ⟨ds', hl'.same (fun e he => ?_)⟩
        have h1 := hI.mem_lt hg hl' e he
        have h2 : e ≠ old := by
          intro h2
          rw [h2] at he
          have hd : old ∈ ds := by
            have := hl.coarsest
            rw [hc] at this
            exact List.mem_of_mem_head? this.symm
          exact hne (disj hI.toInv hg hH hl' hl he hd)
        rw [added_el ho, if_neg h2, if_neg (by omega)]
        exact ⟨rfl, rfl⟩
  · intro a b A B x ha hb hA hB
    rw [added_hs] at ha hb
    have key : ∀ c C, s.hs c = some C → C.coarsest ≠ some s.nEl := fun c C hC hx => by
      have := hI.coa_lt c C _ hC hx; omega
    split at ha <;> split at hb
    · omega
    · injection ha with ha
      rw [← ha] at hA; injection hA with hA
      rw [← hA] at hB
      exact absurd hB (key b B hb)
    · injection hb with hb
      rw [← hb] at hB; injection hB with hB
      rw [← hB] at hA
      exact absurd hA (key a A ha)
    · exact hI.diff a b A B x ha hb hA hB
  · intro i e he
    exact Nat.lt_succ_of_lt (hI.it_lt i e he)
  · intro g hg
    have hg : s.nH ≤ g := hg
    have := hs_lt hI hH
    rw [added_hs, if_neg (by omega)]; exact hI.hs_fresh g hg
  · exact hI.it_fresh
  · intro g G e hg hG
    show e < s.nEl + 1
    rw [added_hs] at hg
    split at hg
    · injection hg with hg
      rw [← hg] at hG; injection hG with hG; omega
    · exact Nat.lt_succ_of_lt (hI.coa_lt g G e hg hG)

theorem addCoarser_eq {s : St T} {h : Nat} {H : Hier} {old : Nat} (hH : s.hs h = some H) (hc : H.coarsest = some old) (v : T) :
    addCoarser h (some v) s = .ok (added h H old v s) := by
  simp only [addCoarser, getH, hH, Res.ok_bind, hc]
  rfl

end HList
end Istl
