import Verif.Model.IluN
import Verif.Spec.IluN
import Verif.Lemmas.Ilu

/-! Helper lemmas for ILU(n). -/

namespace Istl
namespace IluN
open Ilu

theorem mapFind_none_iff (m : GenMap) (j : Nat) : mapFind m j = none ↔ ∀ g, (j, g) ∉ m := by
  induction m with
  | nil => simp [mapFind]
  | cons e m ih =>
    obtain ⟨k, h⟩ := e
    rw [mapFind]
    split
    · rename_i hk; subst hk; simp only [reduceCtorEq, List.mem_cons, Prod.mk.injEq, true_and, not_or, false_iff]
      intro hc; exact (hc h).1 rfl
    · rename_i hk; rw [ih]
      simp only [List.mem_cons, Prod.mk.injEq, not_or, not_and]
      exact ⟨fun H g => ⟨fun hj => absurd hj.symm hk, H g⟩, fun H g => (H g).2⟩

theorem mapFind_some_iff {m : GenMap} (hm : m.Asc) (j g : Nat) : mapFind m j = some g ↔ (j, g) ∈ m := by
  induction m with
  | nil => simp [mapFind]
  | cons e m ih =>
    obtain ⟨k, h⟩ := e
    rw [asc_cons] at hm
    rw [mapFind]
    split
    · rename_i hk; subst hk
      simp only [Option.some.injEq, List.mem_cons, Prod.mk.injEq, true_and]
      constructor
      · intro h; left; exact h.symm
      · rintro (h | h)
        · exact h.symm
        · have := hm.1 _ h; simp at this
    · rename_i hk
      rw [ih hm.2]
      simp only [List.mem_cons, Prod.mk.injEq]
      constructor
      · intro h; right; exact h
      · rintro (⟨h, -⟩ | h)
        · exact absurd h.symm hk
        · exact h

theorem mapInsert_keys (m : GenMap) (j g : Nat) : ∀ e ∈ mapInsert m j g, e.1 = j ∨ e ∈ m := by
  induction m with
  | nil => simp [mapInsert]
  | cons x m ih =>
    obtain ⟨k, h⟩ := x
    rw [mapInsert]
    intro e he
    split at he
    · rcases List.mem_cons.mp he with rfl | he
      · left; rfl
      · right; exact he
    · split at he
      · rename_i hjk
        rcases List.mem_cons.mp he with rfl | he
        · left; exact hjk.symm
        · right; exact List.mem_cons_of_mem _ he
      · rcases List.mem_cons.mp he with rfl | he
        · right; simp
        · rcases ih e he with h | h
          · left; exact h
          · right; exact List.mem_cons_of_mem _ h

theorem mapInsert_asc {m : GenMap} (hm : m.Asc) (j g : Nat) : (mapInsert m j g).Asc := by
  induction m with
  | nil => simp [mapInsert, Row.Asc]
  | cons x m ih =>
    obtain ⟨k, h⟩ := x
    have hm' := hm
    rw [asc_cons] at hm
    rw [mapInsert]
    split
    · rw [asc_cons]
      refine ⟨?_, hm'⟩
      intro e he
      rcases List.mem_cons.mp he with rfl | he
      · assumption
      · have := hm.1 e he; simp at this ⊢; omega
    · split
      · rw [asc_cons]; exact hm
      · rw [asc_cons]
        refine ⟨?_, ih hm.2⟩
        intro e he
        rcases mapInsert_keys m j g e he with h1 | h1
        · simp; omega
        · exact hm.1 e h1

theorem mapFind_insert (m : GenMap) (hm : m.Asc) (j g l : Nat) :
    mapFind (mapInsert m j g) l = if l = j then some g else mapFind m l := by
  induction m with
  | nil => simp [mapInsert, mapFind, eq_comm]
  | cons x m ih =>
    obtain ⟨k, h⟩ := x
    rw [asc_cons] at hm
    rw [mapInsert]
    by_cases h1 : j < k
    · rw [if_pos h1, mapFind]
      simp [eq_comm]
    · rw [if_neg h1]
      by_cases h2 : j = k
      · subst h2
        rw [if_pos rfl]
        simp only [mapFind]
        by_cases h3 : j = l
        · simp [h3]
        · simp [h3, Ne.symm h3]
      · rw [if_neg h2]
        simp only [mapFind, ih hm.2]
        by_cases h3 : k = l
        · subst h3; simp [Ne.symm h2]
        · simp [h3]

theorem fillFrom_spec (n : Nat) (kj : List (Nat × Nat)) : ∀ (pat : GenMap), Row.Asc kj → pat.Asc →
    (fillFrom n kj pat).Asc ∧ ∀ j, mapFind (fillFrom n kj pat) j =
      match mapFind pat j with
      | some g => some g
      | none => match mapFind kj j with
        | some g => if g < n then some (g + 1) else none
        | none => none := by
  induction kj with
  | nil =>
    intro pat _ hp
    refine ⟨hp, fun j => ?_⟩
    simp only [fillFrom, List.foldl_nil, mapFind]
    cases mapFind pat j <;> rfl
  | cons e kj ih =>
    obtain ⟨k, g⟩ := e
    intro pat hk hp
    rw [asc_cons] at hk
    set pat' := (if g < n then
      match mapFind pat k with
      | none => mapInsert pat k (g + 1)
      | some _ => pat
    else pat) with hpat'
    have hstep : fillFrom n ((k, g) :: kj) pat = fillFrom n kj pat' := rfl
    have hasc : pat'.Asc := by
      rw [hpat']; split
      · split
        · exact mapInsert_asc hp _ _
        · exact hp
      · exact hp
    have hnk : mapFind kj k = none := by
      rw [mapFind_none_iff]; intro g hg
      have := hk.1 _ hg; simp at this
    obtain ⟨h1, h2⟩ := ih pat' hk.2 hasc
    rw [hstep]
    refine ⟨h1, fun j => ?_⟩
    rw [h2 j]
    have hj : mapFind pat' j = if j = k ∧ mapFind pat k = none ∧ g < n then some (g + 1) else mapFind pat j := by
      rw [hpat']
      by_cases hg : g < n
      · rw [if_pos hg]
        cases hpk : mapFind pat k with
        | none => 
          simp only [hg, and_true, true_and]
          exact mapFind_insert pat hp k (g + 1) j
        | some x => simp
      · simp [hg]
    rw [hj]
    by_cases hjk : j = k
    · subst hjk
      rw [hnk]
      simp only [mapFind, if_true, true_and]
      cases hpj : mapFind pat j with
      | none => by_cases hg : g < n <;> simp [hg]
      | some x => simp
    · rw [if_neg (by simp [hjk])]
      simp only [mapFind, if_neg (Ne.symm hjk)]

theorem initPattern_spec {R : Type} (r : Row R) :
    (initPattern r).Asc ∧ ∀ j, mapFind (initPattern r) j = if j ∈ r.map Prod.fst then some 0 else none := by
  have key : ∀ (r : Row R) (pat : GenMap), pat.Asc → (r.foldl (fun pat e => mapInsert pat e.1 0) pat).Asc ∧
      ∀ j, mapFind (r.foldl (fun pat e => mapInsert pat e.1 0) pat) j = if j ∈ r.map Prod.fst then some 0 else mapFind pat j := by
    intro r
    induction r with
    | nil => intro pat hp; exact ⟨hp, fun j => by simp⟩
    | cons e r ih =>
      intro pat hp
      obtain ⟨h1, h2⟩ := ih _ (mapInsert_asc hp e.1 0)
      refine ⟨h1, fun j => ?_⟩
      rw [List.foldl_cons, h2 j, mapFind_insert _ hp]
      by_cases h : j ∈ r.map Prod.fst
      · simp only [List.map_cons, List.mem_cons, h, or_true, if_true]
      · by_cases h' : j = e.1
        · simp [h']
        · simp only [List.map_cons, List.mem_cons, h, h', or_self, if_false]
  obtain ⟨h1, h2⟩ := key r [] (by simp [Row.Asc])
  exact ⟨h1, fun j => by rw [initPattern, h2 j]; rfl⟩

/-- coupling through row `k` in terms of the current row map `L` -/
def Cp (n : Nat) (G : Nat → Nat → Option Nat) (L : Nat → Option Nat) (j k g : Nat) : Prop :=
  k < j ∧ (∃ h, L k = some h ∧ h < n) ∧ G k j = some g ∧ g < n

/-- state of the row map after the rows `k < t` have been visited -/
structure RowInv (n : Nat) (G : Nat → Nat → Option Nat) (S : Nat → Prop) (t : Nat) (L : Nat → Option Nat) : Prop where
  stored : ∀ j, S j → L j = some 0
  fill : ∀ j k g, ¬ S j → k < t → Cp n G L j k g → (∀ k' g', k' < k → ¬ Cp n G L j k' g') → L j = some (g + 1)
  none : ∀ j, ¬ S j → (∀ k g, k < t → ¬ Cp n G L j k g) → L j = none

theorem RowInv.zero (n : Nat) (G : Nat → Nat → Option Nat) (S : Nat → Prop) [DecidablePred S] (L : Nat → Option Nat)
    (h : ∀ j, L j = if S j then some 0 else Option.none) : RowInv n G S 0 L :=
  ⟨fun j hj => by rw [h, if_pos hj], fun j k g _ hk => by omega, fun j hj _ => by rw [h, if_neg hj]⟩

/-- nothing is filled from row `t` when it is not (or no longer) coupled -/
theorem RowInv.skip {n : Nat} {G : Nat → Nat → Option Nat} {S : Nat → Prop} {t : Nat} {L : Nat → Option Nat} (H : RowInv n G S t L)
    (h : ∀ g, L t = some g → ¬ g < n) : RowInv n G S (t + 1) L := by
  refine ⟨H.stored, fun j k g hj hk hc hf => ?_, fun j hj hc => H.none j hj fun k g hk => hc k g (by omega)⟩
  rcases Nat.lt_or_ge k t with hkt | hkt
  · exact H.fill j k g hj hkt hc hf
  · obtain rfl : k = t := by omega
    obtain ⟨-, ⟨x, hx, hxn⟩, -⟩ := hc
    exact absurd hxn (h x hx)

/-- visiting row `t` -/
theorem RowInv.visit {n : Nat} {G : Nat → Nat → Option Nat} {S : Nat → Prop} {t : Nat} {L L' : Nat → Option Nat}
    (H : RowInv n G S t L) {g0 : Nat} (ht : L t = some g0) (hg0 : g0 < n)
    (hL : ∀ j, L' j = match L j with
      | some g => some g
      | Option.none => if t < j then (match G t j with
        | some g => if g < n then some (g + 1) else Option.none
        | Option.none => Option.none) else Option.none) : RowInv n G S (t + 1) L' := by
  have hle : ∀ j, j ≤ t → L' j = L j := by
    intro j hj
    rw [hL j]
    cases L j with
    | some x => rfl
    | none => simp only [if_neg (show ¬ t < j by omega)]
  have hmono : ∀ j x, L j = some x → L' j = some x := by
    intro j x hx; rw [hL j, hx]
  have hcp : ∀ j k g, k ≤ t → (Cp n G L' j k g ↔ Cp n G L j k g) := by
    intro j k g hk
    unfold Cp; rw [hle k hk]
  refine ⟨fun j hj => hmono j 0 (H.stored j hj), fun j k g hj hk hc hf => ?_, fun j hj hc => ?_⟩
  · rcases Nat.lt_or_ge k t with hkt | hkt
    · exact hmono j _ (H.fill j k g hj hkt ((hcp j k g (by omega)).mp hc) fun k' g' hk' hc' =>
        hf k' g' hk' ((hcp j k' g' (by omega)).mpr hc'))
    · obtain rfl : k = t := by omega
      have hLj : L j = Option.none := H.none j hj fun k' g' hk' hc' => hf k' g' hk' ((hcp j k' g' (by omega)).mpr hc')
      obtain ⟨h1, -, h3, h4⟩ := hc
      rw [hL j, hLj]
      simp only [if_pos h1, h3, if_pos h4]
  · have hLj : L j = Option.none := H.none j hj fun k' g' hk' hc' => hc k' g' (by omega) ((hcp j k' g' (by omega)).mpr hc')
    rw [hL j, hLj]
    by_cases htj : t < j
    · simp only [if_pos htj]
      cases hg : G t j with
      | none => rfl
      | some g =>
        by_cases hgn : g < n
        · exact absurd ((hcp j t g (le_refl _)).mpr ⟨htj, ⟨g0, ht, hg0⟩, hg, hgn⟩) (hc t g (by omega))
        · simp only [if_neg hgn]
    · simp only [if_neg htj]

theorem mapFind_filter_gt (r : GenMap) (t j : Nat) :
    mapFind (r.filter fun e => decide (t < e.1)) j = if t < j then mapFind r j else none := by
  induction r with
  | nil => simp [mapFind]
  | cons e r ih =>
    obtain ⟨k, g⟩ := e
    rw [List.filter_cons]
    by_cases hk : t < k
    · simp only [hk, decide_true, if_true, mapFind, ih]
      by_cases h : k = j
      · subst h; simp [hk]
      · simp [h]
    · simp only [hk, decide_false, Bool.false_eq_true, if_false, mapFind, ih]
      by_cases h : k = j
      · subst h; simp [hk]
      · simp [h]

theorem symRow_spec (n : Nat) (gens : Nat → GenMap) (i : Nat) (pat0 : GenMap) (S : Nat → Prop) [DecidablePred S] (h0 : pat0.Asc)
    (hL0 : ∀ j, mapFind pat0 j = if S j then some 0 else none) (hi : S i)
    (hrows : ∀ k, k < i → (gens k).Asc ∧ ∃ g, (k, g) ∈ gens k) :
    ∃ r, symRow n gens i pat0 = .ok r ∧ r.Asc ∧ RowInv n (fun k j => mapFind (gens k) j) S i (mapFind r) := by
  have key : ∀ t, t ≤ i → ∃ pat, forRangeM t (symStep n gens) pat0 = .ok pat ∧ pat.Asc ∧ RowInv n (fun k j => mapFind (gens k) j) S t (mapFind pat) := by
    intro t
    induction t with
    | zero => intro _; exact ⟨pat0, rfl, h0, RowInv.zero _ _ _ _ hL0⟩
    | succ t ih =>
      intro ht
      obtain ⟨pat, h1, h2, h3⟩ := ih (by omega)
      rw [forRangeM_succ, h1, Res.ok_bind]
      unfold symStep
      cases hf : mapFind pat t with
      | none => exact ⟨pat, rfl, h2, h3.skip fun g hg => by rw [hf] at hg; cases hg⟩
      | some g =>
        by_cases hg : g < n
        · obtain ⟨ha, g', hg'⟩ := hrows t (by omega)
          obtain ⟨q, e1, -, e2⟩ := find_drop ha hg'
          simp only [if_pos hg, e1, Res.ok_bind, e2]
          have hfa : Row.Asc ((gens t).filter fun e => decide (t < e.1)) :=
            List.Pairwise.sublist (List.Sublist.map _ List.filter_sublist) ha
          obtain ⟨f1, f2⟩ := fillFrom_spec n _ pat hfa h2
          refine ⟨_, rfl, f1, h3.visit hf hg fun j => ?_⟩
          rw [f2 j, mapFind_filter_gt]
          cases mapFind pat j with
          | some x => rfl
          | none => by_cases htj : t < j <;> simp only [htj, if_true, if_false]
        · simp only [if_neg hg]
          exact ⟨pat, rfl, h2, h3.skip fun g' hg' => by rw [hf] at hg'; cases hg'; exact hg⟩
  obtain ⟨pat, h1, h2, h3⟩ := key i (le_refl _)
  refine ⟨pat, ?_, h2, h3⟩
  unfold symRow
  rw [h1, Res.ok_bind, if_pos]
  rw [List.any_eq_true]
  exact ⟨(i, 0), (mapFind_some_iff h2 i 0).mp (h3.stored i hi), by simp⟩

end IluN
end Istl
