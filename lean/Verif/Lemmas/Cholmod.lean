import Verif.Props.C49
import Verif.Spec.Cholmod

/-! # Lemmas for the Cholmod wrapper: the arrays -/

namespace Istl
namespace Cholmod
open ForEach Ccs Umf

variable {K : Type}

/-- kept entries of the upper triangle, transposed, with their new position -/
def trU (kept : Nat → Bool) (rank : Nat → Nat) (t : K × Nat × Nat) : Option (Nat × Nat × K) :=
  if kept t.2.1 && kept t.2.2 && decide (t.2.1 ≤ t.2.2) then some (rank t.2.2, rank t.2.1, t.1) else none

theorem trU_pos {kept : Nat → Bool} {rank : Nat → Nat} {t : K × Nat × Nat}
    (h : (kept t.2.1 && kept t.2.2 && decide (t.2.1 ≤ t.2.2)) = true) :
    trU kept rank t = some (rank t.2.2, rank t.2.1, t.1) := by rw [trU, if_pos h]

theorem trU_neg {kept : Nat → Bool} {rank : Nat → Nat} {t : K × Nat × Nat}
    (h : ¬(kept t.2.1 && kept t.2.2 && decide (t.2.1 ≤ t.2.2)) = true) :
    trU kept rank t = none := by rw [trU, if_neg h]

/-- The number of entries in the upper triangle. -/
def upperCount (T : List (K × Nat × Nat)) : Nat := (T.filter fun t => decide (t.2.1 ≤ t.2.2)).length

theorem filterMap_le_upper (kept : Nat → Bool) (rank : Nat → Nat) (T : List (K × Nat × Nat)) :
    (T.filterMap (trU kept rank)).length ≤ upperCount T := by
  induction T with
  | nil => simp [upperCount]
  | cons t T ih =>
    unfold upperCount at *
    by_cases h : (kept t.2.1 && kept t.2.2 && decide (t.2.1 ≤ t.2.2)) = true
    · rw [List.filterMap_cons_some (trU_pos h)]
      simp only [Bool.and_eq_true, decide_eq_true_eq] at h
      rw [List.filter_cons_of_pos (by simpa using h.2)]
      simpa using ih
    · rw [List.filterMap_cons_none (trU_neg h)]
      exact ih.trans ((List.sublist_cons_self t T).filter _ |>.length_le)

theorem countUpper_fold (T : List (K × Nat × Nat)) (k : Nat) :
    callsAt (fun _ r c k => countUpper r c k) 0 0 T k = k + upperCount T := by
  unfold callsAt upperCount
  induction T generalizing k with
  | nil => simp
  | cons t T ih =>
    rw [List.foldl_cons, ih]
    by_cases h : t.2.1 ≤ t.2.2
    · rw [List.filter_cons_of_pos (by simpa using h)]
      simp [countUpper, h]; omega
    · rw [List.filter_cons_of_neg (by simpa using h)]
      simp [countUpper, h]

theorem arrays_spec (v0 : Nat → K) (i0 : Nat → Nat) (A : NMat K) (n N : Nat) (T : List (K × Nat × Nat)) (hT : Trav A n n T)
    (hA : Ascending A) (bits : Option (List Bool)) (sub : List (Option Nat)) (kept : Nat → Bool) (rank : Nat → Nat)
    (hsel : Sel bits sub n n N kept rank) :
    ∃ X, arrays v0 i0 A bits sub N (upperCount T) = .ok X ∧ X.N = N ∧ X.M = N ∧
      (packed X).Represents N (fun r c v => (r, c, v) ∈ T.filterMap (trU kept rank)) := by
  set E := T.filterMap (trU kept rank) with hEdef
  have hskip : ∀ t ∈ T, Umf.skip bits (0 + t.2.1) (0 + t.2.2) = .ok (!(kept t.2.1 && kept t.2.2)) := by
    intro t ht
    rw [Nat.zero_add, Nat.zero_add]
    exact hsel.skip _ _ (hT.bound t ht).1 (hT.bound t ht).2
  have hE : ∀ e ∈ E, e.2.1 < N := by
    intro e he
    obtain ⟨t, ht, hte⟩ := List.mem_filterMap.mp he
    by_cases hk : (kept t.2.1 && kept t.2.2 && decide (t.2.1 ≤ t.2.2)) = true
    · rw [trU_pos hk] at hte
      cases hte
      simp only [Bool.and_eq_true] at hk
      exact hsel.lt _ (hT.bound t ht).1 hk.1.1
    · rw [trU_neg hk] at hte; cases hte
  have hpw : E.Pairwise (fun e e' => e.2.1 = e'.2.1 → e.1 < e'.1) := by
    rw [hEdef, List.pairwise_filterMap]
    refine (hT.rows hA).imp ?_
    intro t t' h e he e' he' hc
    by_cases hk : (kept t.2.1 && kept t.2.2 && decide (t.2.1 ≤ t.2.2)) = true
    · by_cases hk' : (kept t'.2.1 && kept t'.2.2 && decide (t'.2.1 ≤ t'.2.2)) = true
      · rw [trU_pos hk] at he
        rw [trU_pos hk'] at he'
        cases he; cases he'
        simp only [Bool.and_eq_true] at hk hk'
        dsimp only at hc ⊢
        refine hsel.mono _ _ (h ?_) hk.1.2
        rcases lt_trichotomy t.2.1 t'.2.1 with hl | hl | hl
        · have := hsel.mono _ _ hl hk.1.1; omega
        · exact hl
        · have := hsel.mono _ _ hl hk'.1.1; omega
      · rw [trU_neg hk'] at he'; cases he'
    · rw [trU_neg hk] at he; cases he
  -- counting
  obtain ⟨cs, e2, hcs⟩ := foldl_res_inv (fun st (t : K × Nat × Nat) => countRow bits sub (0 + t.2.1) (0 + t.2.2) st)
    (fun P cs => VecIs cs (N + 1) (fun q => if q = 0 then 0 else (colOf (q - 1) (P.filterMap (trU kept rank))).length)) T
    (List.replicate (N + 1) 0) ⟨by simp, by intro i hi; rw [rd_ok]; simp [hi, colOf]⟩ (by
      intro P t rest cs hl hcs
      have ht : t ∈ T := by rw [hl]; simp
      by_cases hkk : (kept t.2.1 && kept t.2.2 && decide (t.2.1 ≤ t.2.2)) = true
      · have hkk' := hkk
        simp only [Bool.and_eq_true, decide_eq_true_eq] at hkk'
        obtain ⟨⟨hr1, hc1⟩, hle⟩ := hkk'
        have hlt := hsel.lt _ (hT.bound t ht).1 hr1
        have hr := hcs.2 (rank t.2.1 + 1) (by omega)
        dsimp only at hr
        rw [if_neg (by omega), Nat.add_sub_cancel] at hr
        obtain ⟨cs', e, hv⟩ := hcs.wr ((colOf (rank t.2.1) (P.filterMap (trU kept rank))).length + 1)
          (show rank t.2.1 + 1 < N + 1 by omega)
        have hp := hsel.pickR _ (hT.bound t ht).1 hr1
        refine ⟨cs', ?_, hv.congr ?_⟩
        · simp only [countRow, Res.ok_bind, hskip t ht, hr1, hc1]
          simp only [Nat.zero_add] at *
          rw [if_neg (by simp), if_neg (by omega)]
          simp [hp, hr, e]
        · intro q _
          rw [List.filterMap_append, colOf_append]
          by_cases hq : q = rank t.2.1 + 1
          · subst hq
            simp [trU_pos hkk, colOf]
          · rw [upd_ne _ _ hq]
            by_cases hq0 : q = 0
            · simp [hq0]
            · have : rank t.2.1 ≠ q - 1 := by omega
              simp [hq0, trU_pos hkk, colOf, this]
      · refine ⟨cs, ?_, hcs.congr ?_⟩
        · simp only [countRow, Res.ok_bind, hskip t ht]
          by_cases hk2 : (kept t.2.1 && kept t.2.2) = true
          · rw [hk2, Bool.true_and, decide_eq_true_eq] at hkk
            rw [if_neg (by simp [hk2]), if_pos (by omega)]
          · rw [if_pos (by rw [Bool.eq_false_of_not_eq_true hk2]; rfl)]
        · intro q _
          rw [List.filterMap_append]
          simp [trU_neg hkk])
  obtain ⟨csz, ez, hcsz⟩ := hcs.wr 0 (show 0 < N + 1 by omega)
  have hcsz' : VecIs csz (N + 1) (fun q => if q = 0 then 0 else (colOf (q - 1) E).length) := by
    refine hcsz.congr ?_
    intro q _
    by_cases hq : q = 0
    · subst hq; simp
    · rw [upd_ne _ _ hq]
  obtain ⟨cs', e3, hcs'⟩ := acc_spec N E csz hcsz'
  -- filling
  obtain ⟨s', e4, hr4, hv4, hput⟩ := fillAll_spec N E hE cs' hcs'
    ⟨(List.range (upperCount T)).map i0, (List.range (upperCount T)).map v0, List.replicate N 0⟩
    ⟨by simp, by intro i hi; rw [rd_ok]; simp [hi]⟩ (upperCount T) (filterMap_le_upper kept rank T) (by simp) (by simp)
  have e5 : T.foldl (fun st (t : K × Nat × Nat) => fillRow bits sub cs' t.1 (0 + t.2.1) (0 + t.2.2) st)
      (.ok ⟨(List.range (upperCount T)).map i0, (List.range (upperCount T)).map v0, List.replicate N 0⟩) = .ok s' := by
    have key : ∀ (U : List (K × Nat × Nat)) (s : Fill K), (∀ t ∈ U, t ∈ T) →
        U.foldl (fun st (t : K × Nat × Nat) => fillRow bits sub cs' t.1 (0 + t.2.1) (0 + t.2.2) st) (.ok s) =
        (U.filterMap (trU kept rank)).foldlM (fun s e => fillAt cs' e.2.2 e.1 e.2.1 s) s ∨
        ∀ y, (U.filterMap (trU kept rank)).foldlM (fun s e => fillAt cs' e.2.2 e.1 e.2.1 s) s ≠ .ok y := by
      intro U
      induction U with
      | nil => intro s _; exact Or.inl rfl
      | cons t U ih =>
        intro s hU
        have ht := hU t (by simp)
        by_cases hkk : (kept t.2.1 && kept t.2.2 && decide (t.2.1 ≤ t.2.2)) = true
        · have hkk' := hkk
          simp only [Bool.and_eq_true, decide_eq_true_eq] at hkk'
          obtain ⟨⟨hr1, hc1⟩, hle⟩ := hkk'
          have hp := hsel.pickC _ (hT.bound t ht).2 hc1
          have hp' := hsel.pickR _ (hT.bound t ht).1 hr1
          have h1 : fillRow bits sub cs' t.1 (0 + t.2.1) (0 + t.2.2) (.ok s) = fillAt cs' t.1 (rank t.2.2) (rank t.2.1) s := by
            simp only [fillRow, Res.ok_bind, hskip t ht, hr1, hc1]
            rw [if_neg (by simp), if_neg (by omega)]
            simp [hp, hp']
          rw [List.foldl_cons, h1, List.filterMap_cons, trU_pos hkk]
          simp only [List.foldlM_cons]
          cases hf : fillAt cs' t.1 (rank t.2.2) (rank t.2.1) s with
          | ok s1 => exact ih s1 (fun x hx => hU x (by simp [hx]))
          | throw e => right; intro y h; cases h
          | ub => right; intro y h; cases h
        · have h1 : fillRow bits sub cs' t.1 (0 + t.2.1) (0 + t.2.2) (.ok s) = .ok s := by
            simp only [fillRow, Res.ok_bind, hskip t ht]
            by_cases hk2 : (kept t.2.1 && kept t.2.2) = true
            · rw [hk2, Bool.true_and, decide_eq_true_eq] at hkk
              rw [if_neg (by simp [hk2]), if_pos (by omega)]
            · rw [if_pos (by rw [Bool.eq_false_of_not_eq_true hk2]; rfl)]
          rw [List.foldl_cons, h1, List.filterMap_cons, trU_neg hkk]
          exact ih s (fun x hx => hU x (by simp [hx]))
    rcases key T _ (fun _ h => h) with h | h
    · rw [h, ← hEdef]; exact e4
    · exact absurd e4 (h s')
  refine ⟨⟨N, N, upperCount T, s'.values, s'.rowindex, cs'⟩, ?_, rfl, rfl, ?_⟩
  · unfold arrays
    rw [hT.run]
    simp only [Res.ok_bind, callsAt]
    rw [e2]
    simp only [Res.ok_bind]
    rw [ez]
    simp only [Res.ok_bind]
    rw [e3]
    simp only [Res.ok_bind]
    rw [hT.run]
    simp only [Res.ok_bind, callsAt]
    rw [e5]
    rfl
  · have hlast : cs'.getLastD 0 = E.length := by
      have h := hcs'.2 N (by omega)
      rw [rd_ok] at h
      rw [List.getLastD_eq_getLast?, List.getLast?_eq_getElem?, hcs'.1, Nat.add_sub_cancel, h, startOf_total E N hE]
      rfl
    have hlen := filterMap_le_upper kept rank T
    rw [← hEdef] at hlen
    refine represents_of_cols N E hE hpw _ hcs' hlast ?_ ?_ ?_
    · simp only [packed, hlast, List.length_take]; omega
    · simp only [packed, hlast, List.length_take]; omega
    · intro c hc k e he
      obtain ⟨g1, g2⟩ := hput c hc k e he
      have hk : k < (colOf c E).length := by
        by_contra h
        rw [List.getElem?_eq_none (by omega)] at he
        cases he
      have hlt : startOf E c + k < E.length := by
        have h1 := startOf_mono E (show c + 1 ≤ N by omega)
        rw [startOf_total E N hE, startOf_succ] at h1
        omega
      simp only [packed, hlast]
      rw [List.getElem?_take_of_lt hlt, List.getElem?_take_of_lt hlt]
      exact ⟨g1, g2⟩

end Cholmod
end Istl
