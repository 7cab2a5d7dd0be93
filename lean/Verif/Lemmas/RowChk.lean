import Verif.Spec.RowChk
import Verif.Lemmas.RowProg

/-! Lemmas for C104. -/

namespace Istl
namespace RowStmt
open Bcrs BcrsWorld Iter
variable {B : Type} {z : B} {S : State B} {w : World B}

theorem colFind_end {h : Heap B} {win : Win} {row : Row B} (hs : win.sz = row.length)
    (hj : h.js.read win.j win.sz = .ok (row.map Prod.fst)) (ha : Row.Asc row) (c : Nat) :
    ∃ it, colFind h win c = .ok it ∧ (it.equals (colEnd win) = true ↔ c ∉ columns row) := by
  obtain ⟨f1, f2, f3, f4⟩ := C01_find_exact row ha c
  have hfind : colFind h win c = (row.find c >>= fun q => .ok ⟨win.p, win.j, q.getD row.length⟩) := by
    unfold colFind Row.find
    rw [hj, hs, Res.ok_bind]
    dsimp only
    cases hlb : lowerBound (row.map Prod.fst) row.length c with
    | ok lb =>
      simp only [Res.ok_bind]
      by_cases hl : lb = row.length
      · rw [if_pos hl, if_pos hl]; simp [colEnd, hs]
      · rw [if_neg hl, if_neg hl]
        cases hrd : rd (row.map Prod.fst) lb with
        | ok a =>
          simp only [Res.ok_bind]
          by_cases ha : a = c
          · rw [if_pos ha, if_pos ha]; rfl
          · rw [if_neg ha, if_neg ha]; simp [colEnd, hs]
        | throw e => rfl
        | ub => rfl
    | throw e => rfl
    | ub => rfl
  cases hf : row.find c with
  | ub => exact absurd hf f3
  | throw e => exact absurd hf (f4 e)
  | ok q =>
    refine ⟨_, by rw [hfind, hf]; rfl, ?_⟩
    cases q with
    | none =>
      have hno : ¬ row.Has c := f2.1 hf
      simp only [ColIt.equals, colEnd, hs, Option.getD_none, beq_self_eq_true, true_iff]
      exact fun hh => hno (has_iff.2 hh)
    | some k =>
      obtain ⟨b, hb⟩ := (f1 k).1 hf
      have hk := (List.getElem?_eq_some_iff.mp hb).1
      have hh : c ∈ columns row := List.mem_map.2 ⟨_, List.mem_of_getElem? hb, rfl⟩
      simp only [ColIt.equals, colEnd, hs, Option.getD_some, beq_iff_eq, hh, not_true_eq_false, iff_false]
      omega

/-- What `A[r]` gives. -/
theorem chkRow_none (I : Inv z w S) {x r : Nat} (hx : Alive S x) (hr : rowOf S x r = none) : chkRow w x r = .throw .bcrsMatrixError := by
  obtain ⟨v, hv⟩ := hx
  have hv' := get_iff.mp hv
  obtain ⟨o, ho, R⟩ := I.rep x v hv'
  obtain ⟨ws, hws, hl, -⟩ := R.wins
  have hge : v.rows.length ≤ r := by
    unfold rowOf at hr
    rw [hv, Option.bind_some, List.getElem?_eq_none_iff] at hr
    exact hr
  unfold chkRow
  rw [obj_ok ho, Res.ok_bind, hws.2]
  by_cases hn : o.n = 0
  · rw [if_pos hn]
  · rw [if_neg hn]
    dsimp only
    rw [if_pos (by have := hws.1; omega)]

theorem chkRow_some (I : Inv z w S) {x r : Nat} {row : Row B} (hr : rowOf S x r = some row) :
    ∃ win, chkRow w x r = .ok win ∧ rowRef w x r = .ok win ∧ win.sz = row.length ∧ w.h.js.read win.j win.sz = .ok (row.map Prod.fst) ∧
      Row.Asc row ∧ ∀ k c b, row[k]? = some (c, b) → (cell win k).index w.h = .ok c ∧ (cell win k).deref w.h = .ok b := by
  obtain ⟨v, hx, hrow⟩ := rowOf_iff.1 hr
  obtain ⟨o, ws, win, ho, hws, hwin, href⟩ := rowRef_ok I hx hrow
  obtain ⟨t1, t2, t3, t4⟩ := read_entry I hx ho hws hwin hrow
  refine ⟨win, ?_, href, t1, t2, t3, t4⟩
  have hlt := (List.getElem?_eq_some_iff.mp hwin).1
  unfold rowRef at href
  rw [obj_ok ho, Res.ok_bind] at href
  unfold chkRow
  rw [obj_ok ho, Res.ok_bind]
  have hr0 : o.rows = some ws := by rw [hws.2, if_neg (by have := hws.1; omega)]
  rw [hr0] at href ⊢
  dsimp only
  rw [if_neg (by have := hws.1; omega)]
  exact href

theorem includes_eq {h : Heap B} {win win' : Win} {row src : Row B} (hs : win.sz = row.length)
    (hj : h.js.read win.j win.sz = .ok (row.map Prod.fst)) (ha : Row.Asc row) (hs' : win'.sz = src.length)
    (hr : ∀ k c b, src[k]? = some (c, b) → (cell win' k).index h = .ok c) :
    includes h win win' = .ok (decide (∀ c ∈ columns src, c ∈ columns row)) := by
  unfold includes
  rw [hs']
  obtain ⟨b, h1, h2⟩ := forRangeM_inv src.length (fun i (b : Bool) =>
    if b then do
      let c ← (cell win' i).index h
      let it ← colFind h win c
      .ok (!(it.equals (colEnd win)))
    else .ok false) (fun k b => b = decide (∀ c ∈ columns (src.take k), c ∈ columns row)) true (by simp [columns]) (by
      intro k b hk hb
      have htk : columns (src.take (k + 1)) = columns (src.take k) ++ [src[k].1] := by
        unfold columns
        rw [List.take_add_one, List.getElem?_eq_getElem hk, List.map_append]; rfl
      cases hbv : b with
      | false =>
        refine ⟨false, rfl, ?_⟩
        rw [hbv] at hb
        symm
        rw [decide_eq_false_iff_not]
        intro hall
        have := of_decide_eq_false hb.symm
        exact this fun c hc => hall c (by rw [htk]; exact List.mem_append_left _ hc)
      | true =>
        rw [hbv] at hb
        have hall := of_decide_eq_true hb.symm
        obtain ⟨it, i1, i2⟩ := colFind_end hs hj ha src[k].1
        refine ⟨!(it.equals (colEnd win)), ?_, ?_⟩
        · rw [if_pos rfl, hr k src[k].1 src[k].2 (List.getElem?_eq_getElem hk), Res.ok_bind, i1]; rfl
        · by_cases hc : src[k].1 ∈ columns row
          · have : it.equals (colEnd win) = false := by
              cases he : it.equals (colEnd win) with
              | false => rfl
              | true => exact absurd hc (i2.1 he)
            rw [this]
            symm
            simp only [Bool.not_false, decide_eq_true_eq]
            intro c hcm
            rw [htk, List.mem_append, List.mem_singleton] at hcm
            rcases hcm with h | h
            · exact hall c h
            · exact h ▸ hc
          · rw [i2.2 hc]
            symm
            simp only [Bool.not_true, decide_eq_false_iff_not]
            exact fun h => hc (h _ (by rw [htk]; simp)))
  rw [h1, h2, List.take_length]

theorem puts_single {row : Row B} (hasc : Row.Asc row) {c : Nat} {b : B} (hb : (c, b) ∈ row) (f : B → B) :
    puts [(c, f b)] row = mapAt c f row := by
  unfold puts combined mapAt
  apply List.map_congr_left
  intro p hp
  by_cases hc : p.1 = c
  · have h1 := (valueAt_some (nodup_asc hasc)).2 hb
    have h2 := (valueAt_some (nodup_asc hasc)).2 hp
    rw [hc, h1] at h2
    have : b = p.2 := Option.some.inj h2
    simp [valueAt, hc, this]
  · have : ¬ c = p.1 := fun h => hc h.symm
    simp [valueAt, hc, this]

theorem entry_inv (I : Inv z w S) {x r c : Nat} {row : Row B} (hr : rowOf S x r = some row) (hc : c ∈ columns row) (f : B → B) :
    ∃ w', entryWrite f x r c w = .ok w' ∧ Inv z w' (inRow S x r (mapAt c f)) := by
  obtain ⟨v, hx, hrow⟩ := rowOf_iff.1 hr
  obtain ⟨o, ws, win, ho, hws, hwin, href⟩ := rowRef_ok I hx hrow
  obtain ⟨t1, t2, t3, t4⟩ := read_entry I hx ho hws hwin hrow
  obtain ⟨p, hp, rfl⟩ := List.mem_map.1 hc
  obtain ⟨q, hq, hqe⟩ := List.mem_iff_getElem.mp hp
  have hq' : row[q]? = some (p.1, p.2) := by rw [List.getElem?_eq_getElem hq, hqe]
  obtain ⟨-, h2, w', h3, D⟩ := Done.put (Done.start (r := r) I hx [(p.1, f p.2)]) (by simp [columns]) ho hws hwin hrow
    (e := (p.1, f p.2)) (k := 0) rfl hq'
  refine ⟨w', ?_, D.state hx hrow ?_⟩
  · unfold entryWrite
    rw [href, Res.ok_bind, (access_eq t1 t2 t3 p.1).1 q p.2 hq', Res.ok_bind, (t4 q _ _ hq').2, Res.ok_bind]
    exact h3
  · exact puts_single t3 hp f

/-- One statement. -/
theorem execChk_inv (I : Inv z w S) (st : CStmt B) (hv : AllowedChk S st) :
    ∃ w', execChk w st = .ok (w', outcome S st) ∧ Inv z w' (applyChk z S st) ∧ (outcome S st ≠ none → w' = w) := by
  have good : ∀ w', check w st = .ok () → effect w st = .ok w' → outcome S st = none → Inv z w' (meaning z S st) →
      ∃ w', execChk w st = .ok (w', outcome S st) ∧ Inv z w' (applyChk z S st) ∧ (outcome S st ≠ none → w' = w) := by
    intro w' h1 h2 h3 h4
    refine ⟨w', ?_, ?_, fun h => absurd h3 h⟩
    · unfold execChk; rw [h1, h3]; dsimp only; rw [h2]; rfl
    · unfold applyChk; rw [h3]; exact h4
  have bad : ∀ e, check w st = .throw e → outcome S st = some e →
      ∃ w', execChk w st = .ok (w', outcome S st) ∧ Inv z w' (applyChk z S st) ∧ (outcome S st ≠ none → w' = w) := by
    intro e h1 h2
    refine ⟨w, ?_, ?_, fun _ => rfl⟩
    · unfold execChk; rw [h1, h2]
    · unfold applyChk; rw [h2]; exact I
  cases st with
  | whole op =>
    obtain ⟨w', h1, h2⟩ := step_inv I op hv
    exact good w' rfl h1 rfl h2
  | entry f x r c =>
    cases hr : rowOf S x r with
    | none => exact bad _ (by simp only [check, chkRow_none I hv hr]; rfl) (by simp only [outcome, hr])
    | some row =>
      obtain ⟨win, c1, c2, c3, c4, c5, c6⟩ := chkRow_some I hr
      obtain ⟨a1, a2⟩ := access_eq c3 c4 c5 c
      by_cases hc : c ∈ columns row
      · obtain ⟨w', e1, e2⟩ := entry_inv I hr hc f
        obtain ⟨p, hp, hpe⟩ := List.mem_map.1 hc
        obtain ⟨q, hq, hqe⟩ := List.mem_iff_getElem.mp hp
        have hq' : row[q]? = some (c, p.2) := by rw [List.getElem?_eq_getElem hq, hqe, ← hpe]
        exact good w' (by simp only [check, c1, Res.ok_bind, a1 q p.2 hq']) e1 (by simp only [outcome, hr, if_pos hc]) e2
      · exact bad .istlError (by simp only [check, c1, Res.ok_bind, a2 (fun hh => hc (has_iff.1 hh))]; rfl) (by simp only [outcome, hr, if_neg hc])
  | map f x r =>
    cases hr : rowOf S x r with
    | none => exact bad _ (by simp only [check, chkRow_none I hv hr]; rfl) (by simp only [outcome, hr])
    | some row =>
      obtain ⟨win, c1, -⟩ := chkRow_some I hr
      obtain ⟨w', e1, e2⟩ := map_inv I hr f
      exact good w' (by simp only [check, c1, Res.ok_bind]) e1 (by simp only [outcome, hr]) e2
  | combine f x r y s =>
    cases hr : rowOf S x r with
    | none => exact bad _ (by simp only [check, chkRow_none I hv.1 hr]; rfl) (by simp only [outcome, hr])
    | some row =>
      obtain ⟨win, c1, c2, c3, c4, c5, c6⟩ := chkRow_some I hr
      cases hs : rowOf S y s with
      | none => exact bad _ (by simp only [check, c1, chkRow_none I hv.2 hs, Res.ok_bind]; rfl) (by simp only [outcome, hr, hs])
      | some src =>
        obtain ⟨win', d1, d2, d3, d4, d5, d6⟩ := chkRow_some I hs
        have hinc := includes_eq c3 c4 c5 d3 (fun k c b hk => (d6 k c b hk).1)
        by_cases hall : ∀ c ∈ columns src, c ∈ columns row
        · obtain ⟨w', e1, -, e2⟩ := combine_inv I hr hs hall f
          refine good w' ?_ e1 (by simp only [outcome, hr, hs, if_pos hall]) (by simpa only [meaning, hs, Option.getD_some] using e2)
          simp only [check, c1, d1, Res.ok_bind, hinc, decide_eq_true hall, if_pos]
        · refine bad .istlError ?_ (by simp only [outcome, hr, hs, if_neg hall])
          simp only [check, c1, d1, Res.ok_bind, hinc, decide_eq_false hall]
          rfl
  | copy x r y s =>
    cases hr : rowOf S x r with
    | none => exact bad _ (by simp only [check, chkRow_none I hv.1 hr]; rfl) (by simp only [outcome, hr])
    | some row =>
      obtain ⟨win, c1, c2, c3, c4, c5, c6⟩ := chkRow_some I hr
      cases hs : rowOf S y s with
      | none => exact bad _ (by simp only [check, c1, chkRow_none I hv.2.1 hs, Res.ok_bind]; rfl) (by simp only [outcome, hr, hs])
      | some src =>
        obtain ⟨win', d1, d2, d3, d4, d5, d6⟩ := chkRow_some I hs
        by_cases hl : row.length = src.length
        · obtain ⟨w', e1, e2⟩ := copy_inv I hr hs (hv.2.2 row src hr hs hl)
          refine good w' ?_ e1 (by simp only [outcome, hr, hs, if_pos hl]) (by simpa only [meaning, hs, Option.getD_some] using e2)
          simp only [check, c1, d1, Res.ok_bind, c3, d3, hl, ne_eq, not_true_eq_false, if_false]
        · refine bad .istlError ?_ (by simp only [outcome, hr, hs, if_neg hl])
          simp only [check, c1, d1, Res.ok_bind, c3, d3, ne_eq, hl, not_false_eq_true, if_true]

theorem runChk_inv (prog : List (CStmt B)) : ∀ {w : World B} {S : State B}, Inv z w S → AllAllowedChk z S prog →
    ∃ w', runChk w prog = .ok (w', outcomes z S prog) ∧ Inv z w' (endState z S prog) := by
  induction prog with
  | nil => intro w S I _; exact ⟨w, rfl, I⟩
  | cons st rest ih =>
    intro w S I hv
    obtain ⟨w1, e1, I1, -⟩ := execChk_inv I st hv.1
    obtain ⟨w2, e2, I2⟩ := ih I1 hv.2
    refine ⟨w2, ?_, I2⟩
    simp only [runChk, e1, Res.ok_bind, e2]
    rfl

end RowStmt
end Istl
