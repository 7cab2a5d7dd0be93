import Verif.Spec.RowStmt
import Verif.Lemmas.Iter2
import Verif.Lemmas.Vec
import Verif.Props.C01

/-! Lemmas for C102. -/

namespace Istl
namespace RowStmt
open Bcrs BcrsWorld Iter
variable {B : Type}

theorem forRangeM_throw {S : Type} {f : Nat → S → Res S} {s s' : S} {e : Exc} {k : Nat} (h1 : forRangeM k f s = .ok s')
    (h2 : f k s' = .throw e) : ∀ n, k < n → forRangeM n f s = .throw e := by
  intro n
  induction n with
  | zero => intro h; omega
  | succ n ih =>
    intro h
    rw [forRangeM_succ]
    by_cases hk : k = n
    · subst hk; rw [h1]; exact h2
    · rw [ih (by omega)]; rfl

/-- Constant writes into a row. -/
def puts (l row : Row B) : Row B := combined (fun _ b => b) l row

theorem valueAt_nil (c : Nat) : valueAt ([] : Row B) c = none := rfl

theorem valueAt_some {l : Row B} (hl : (columns l).Nodup) {c : Nat} {b : B} : valueAt l c = some b ↔ (c, b) ∈ l := by
  induction l with
  | nil => simp [valueAt]
  | cons a l ih =>
    have hn : a.1 ∉ columns l ∧ (columns l).Nodup := by
      have := hl
      unfold columns at this ⊢
      rw [List.map_cons, List.nodup_cons] at this
      exact this
    unfold valueAt at ih ⊢
    by_cases hc : a.1 = c
    · rw [List.find?_cons_of_pos (by simpa using hc)]
      simp only [Option.map_some, Option.some.injEq, List.mem_cons]
      constructor
      · rintro rfl; exact .inl (by rw [← hc])
      · rintro (h | h)
        · rw [← h]
        · exact absurd (List.mem_map.2 ⟨_, h, hc.symm⟩) hn.1
    · rw [List.find?_cons_of_neg (by simpa using hc), ih hn.2]
      simp only [List.mem_cons]
      constructor
      · exact .inr
      · rintro (h | h)
        · exact absurd (congrArg Prod.fst h).symm hc
        · exact h

theorem valueAt_none {l : Row B} {c : Nat} : valueAt l c = none ↔ c ∉ columns l := by
  unfold valueAt columns
  simp [List.find?_eq_none]
  constructor
  · intro h b hb; exact h c b hb rfl
  · intro h a b hb hc; exact h b (hc ▸ hb)

theorem puts_nil (row : Row B) : puts [] row = row := by
  unfold puts combined
  simp [valueAt_nil]

theorem puts_columns (l row : Row B) : columns (puts l row) = columns row := by
  unfold puts combined columns
  rw [List.map_map]
  apply List.map_congr_left
  intro e _
  simp only [Function.comp]
  cases valueAt l e.1 <;> rfl

theorem puts_snoc {l : Row B} {e : Nat × B} (hl : (columns (l ++ [e])).Nodup) (row : Row B) :
    puts (l ++ [e]) row = mapAt e.1 (fun _ => e.2) (puts l row) := by
  have hl0 : (columns l).Nodup ∧ e.1 ∉ columns l := by
    unfold columns at hl ⊢
    rw [List.map_append, List.nodup_append] at hl
    exact ⟨hl.1, fun h => hl.2.2 _ h _ (by simp) rfl⟩
  unfold puts combined mapAt
  rw [List.map_map]
  apply List.map_congr_left
  intro p _
  simp only [Function.comp]
  by_cases hp : p.1 = e.1
  · have h1 : valueAt (l ++ [e]) p.1 = some e.2 := (valueAt_some hl).2 (by rw [hp]; simp)
    have h2 : valueAt l p.1 = none := valueAt_none.2 (hp ▸ hl0.2)
    rw [h1, h2]; simp [hp]
  · have h1 : valueAt (l ++ [e]) p.1 = valueAt l p.1 := by
      unfold valueAt
      rw [List.find?_append]
      cases hf : l.find? fun e => e.1 = p.1 with
      | some y => rfl
      | none => simp; exact fun h => hp h.symm
    rw [h1]
    cases hv : valueAt l p.1 with
    | none => simp [hp]
    | some b => simp [hp]

/-- An entry that is not written. -/
theorem puts_get {l row : Row B} {k c : Nat} {b : B} (hk : row[k]? = some (c, b)) (hc : c ∉ columns l) : (puts l row)[k]? = some (c, b) := by
  unfold puts combined
  rw [List.getElem?_map, hk]
  simp [valueAt_none.2 hc]

/-- The assignment of an entry. -/
def wop (x r : Nat) (e : Nat × B) : Op B := .modify x r e.1 fun _ => e.2

/-- The first `k` writes of `l` into row `r` of `A_x` have been done. -/
def Done (z : B) (x r : Nat) (S : State B) (w0 : World B) (v : Val B) (l : Row B) (k : Nat) (w : World B) : Prop :=
  Good z x S w0 ((l.take k).map (wop x r)) w { v with rows := v.rows.modify r (puts (l.take k)) }

section
variable {z : B} {x r : Nat} {S : State B} {w0 : World B} {v : Val B} {l : Row B}

theorem take_nodup {k : Nat} (hl : (columns l).Nodup) : (columns (l.take k)).Nodup := by
  unfold columns at hl ⊢
  rw [List.map_take]
  exact hl.sublist (List.take_sublist _ _)

/-- One more write. -/
theorem Done.put {k : Nat} {w : World B} (D : Done z x r S w0 v l k w) (hl : (columns l).Nodup) {o : Obj B} (ho : w0.objs[x]? = some (some o))
    {ws : List Win} (hws : RowsAre o ws) {win : Win} (hwin : ws[r]? = some win) {row : Row B} (hrow : v.rows[r]? = some row)
    {e : Nat × B} (hk : l[k]? = some e) {q : Nat} {b0 : B} (hq : row[q]? = some (e.1, b0)) :
    (cell win q).index w.h = .ok e.1 ∧ (cell win q).deref w.h = .ok b0 ∧
    ∃ w', RowStmt.put w (cell win q) e.2 = .ok w' ∧ Done z x r S w0 v l (k + 1) w' := by
  have hkl := (List.getElem?_eq_some_iff.mp hk).1
  have htk : l.take (k + 1) = l.take k ++ [e] := by
    rw [List.take_add_one, hk]; rfl
  have hnd : (columns (l.take k ++ [e])).Nodup := htk ▸ take_nodup hl
  have hc : e.1 ∉ columns (l.take k) := by
    unfold columns at hnd ⊢
    rw [List.map_append, List.nodup_append] at hnd
    exact fun h => hnd.2.2 _ h _ (by simp) rfl
  have hi : ({ v with rows := v.rows.modify r (puts (l.take k)) } : Val B).rows[r]? = some (puts (l.take k) row) := by
    simp [List.getElem?_modify, hrow]
  obtain ⟨h1, h2, h3⟩ := Good.entry D ho hi (puts_get hq hc) hws hwin
  refine ⟨h1, h2, ?_⟩
  obtain ⟨as, a1, a2⟩ := h3 e.2
  refine ⟨{ w with h := { w.h with as := as } }, ?_, ?_⟩
  · unfold RowStmt.put cell; rw [a1]; rfl
  · unfold Done
    rw [htk, List.map_append]
    have : (v.rows.modify r (puts (l.take k))).modify r (mapAt e.1 fun _ => e.2) = v.rows.modify r (puts (l.take k ++ [e])) := by
      apply List.ext_getElem? 
      intro i
      simp only [List.getElem?_modify]
      by_cases h : r = i
      · subst h
        cases v.rows[r]? with
        | none => simp
        | some y => simp [puts_snoc hnd]
      · simp [h]
    rw [← this]
    exact a2

/-- What can be read in a world with an invariant. -/
theorem read_entry {w : World B} {y : Nat} {u : Val B} (I : Inv z w S) (hy : S[y]? = some (some u)) {o : Obj B} (ho : w.objs[y]? = some (some o))
    {ws : List Win} (hws : RowsAre o ws) {win : Win} {s : Nat} (hwin : ws[s]? = some win) {row : Row B} (hrow : u.rows[s]? = some row) :
    win.sz = row.length ∧ w.h.js.read win.j win.sz = .ok (row.map Prod.fst) ∧ Row.Asc row ∧
      ∀ k c b, row[k]? = some (c, b) → (cell win k).index w.h = .ok c ∧ (cell win k).deref w.h = .ok b := by
  obtain ⟨o', ho', R⟩ := I.rep y u hy
  have : o' = o := by rw [ho] at ho'; simpa using ho'.symm
  subst this
  obtain ⟨ws', hws', hl, hw⟩ := R.wins
  have : ws' = ws := by rw [← hws'.getD, ← hws.getD]
  subst this
  obtain ⟨h1, e1⟩ := List.getElem?_eq_some_iff.mp hwin
  obtain ⟨h2, e2⟩ := List.getElem?_eq_some_iff.mp hrow
  obtain ⟨s1, s2, s3⟩ := hw s h1 h2
  rw [e1, e2] at s1 s2 s3
  refine ⟨s1, s2, R.asc row (List.mem_of_getElem? hrow), fun k c b hk => ?_⟩
  have hkl : k < row.length := (List.getElem?_eq_some_iff.mp hk).1
  obtain ⟨cx, hcx, rj, -⟩ := read_at s2 (q := k) (by omega)
  obtain ⟨bx, hbx, ra, -⟩ := read_at s3 (q := k) (by omega)
  rw [List.getElem?_map, hk] at hcx hbx
  simp only [Option.map_some, Option.some.injEq] at hcx hbx
  subst hcx hbx
  exact ⟨by simp [cell, ColIt.index, at1, shift, rj], by simp [cell, ColIt.deref, at1, shift, ra]⟩

theorem rowRef_ok {w : World B} {y : Nat} {u : Val B} (I : Inv z w S) (hy : S[y]? = some (some u)) {s : Nat} {row : Row B}
    (hrow : u.rows[s]? = some row) : ∃ o ws win, w.objs[y]? = some (some o) ∧ RowsAre o ws ∧ ws[s]? = some win ∧ rowRef w y s = .ok win := by
  obtain ⟨o, ho, R⟩ := I.rep y u hy
  obtain ⟨ws, hws, hl, hw⟩ := R.wins
  obtain ⟨h2, e2⟩ := List.getElem?_eq_some_iff.mp hrow
  have h1 : s < ws.length := by omega
  refine ⟨o, ws, ws[s], ho, hws, List.getElem?_eq_getElem h1, ?_⟩
  have hr0 : o.rows = some ws := by rw [hws.2, if_neg (by have := hws.1; omega)]
  simp only [rowRef, obj_ok ho, Res.ok_bind, RowIt.deref, hr0, List.getElem?_eq_getElem h1]

theorem access_eq {h : Heap B} {win : Win} {row : Row B} (hs : win.sz = row.length) (hj : h.js.read win.j win.sz = .ok (row.map Prod.fst))
    (ha : Row.Asc row) (c : Nat) :
    (∀ k b, row[k]? = some (c, b) → access h win c = .ok (cell win k)) ∧ (¬ row.Has c → access h win c = .throw .istlError) := by
  have hpw : (row.map Prod.fst).Pairwise (· < ·) := ha
  obtain ⟨k, h1, h2, h3, h4⟩ := lowerBound_spec (row.map Prod.fst) c hpw
  rw [List.length_map] at h1 h2
  unfold access
  rw [hj, hs, Res.ok_bind]
  simp only [h1, Res.ok_bind]
  constructor
  · intro q b hq
    obtain ⟨hql, hqe⟩ := List.getElem?_eq_some_iff.mp hq
    have hqm : (row.map Prod.fst)[q]'(by simpa using hql) = c := by simp [hqe]
    have hkq : k = q := by
      rcases Nat.lt_trichotomy k q with h | h | h
      · have a1 := h4 k (by simp; omega) (le_refl _)
        have a2 := List.pairwise_iff_getElem.mp hpw k q (by simp; omega) (by simpa using hql) h
        rw [hqm] at a2; omega
      · exact h
      · have := h3 q (by simpa using hql) h
        rw [hqm] at this; omega
    subst hkq
    rw [if_neg (by omega)]
    have hrd : rd (row.map Prod.fst) k = .ok c := by
      unfold rd
      rw [List.getElem?_eq_getElem (by simpa using hql), hqm]
    simp [hrd]
  · intro hno
    by_cases hk : k = row.length
    · rw [if_pos hk]
    · rw [if_neg hk]
      have hkl : k < (row.map Prod.fst).length := by simp; omega
      have hrd : rd (row.map Prod.fst) k = .ok (row.map Prod.fst)[k] := by
        unfold rd
        rw [List.getElem?_eq_getElem hkl]
      rw [hrd, Res.ok_bind, if_pos]
      intro he
      apply hno
      have : c ∈ row.map Prod.fst := he ▸ List.getElem_mem hkl
      obtain ⟨p, hp, rfl⟩ := List.mem_map.mp this
      exact ⟨p.2, hp⟩

end
end RowStmt
end Istl
