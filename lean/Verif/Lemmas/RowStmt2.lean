import Verif.Lemmas.RowStmt

/-! The loops of the statements on rows. -/

namespace Istl
namespace RowStmt
open Bcrs BcrsWorld Iter
variable {B : Type}

theorem write_same {α : Type} {M : Mem α} {p : Option Ptr} {k : Nat} {l : List α} (h : M.read p k = .ok l) (hk : k = l.length) : M.write p l = .ok M := by
  subst hk
  unfold Mem.read at h
  unfold Mem.write
  by_cases hl : l = []
  · rw [if_pos hl]
  · rw [if_neg hl]
    rw [if_neg (by simpa using hl)] at h
    cases p with
    | none => cases h
    | some p =>
      simp only at h ⊢
      cases hb : M[p.blk]? with
      | none => rw [hb] at h; cases h
      | some o =>
        cases o with
        | none => rw [hb] at h; cases h
        | some m =>
          rw [hb] at h
          simp only at h ⊢
          by_cases hle : p.off + l.length ≤ m.length
          · rw [if_pos hle] at h ⊢
            simp only [Res.ok.injEq] at h
            congr 1
            have hm : m.take p.off ++ l ++ m.drop (p.off + l.length) = m := by
              conv => lhs; arg 1; arg 2; rw [← h]
              rw [List.append_assoc, ← List.drop_drop, List.take_append_drop, List.take_append_drop]
            rw [hm]
            obtain ⟨h1, h2⟩ := List.getElem?_eq_some_iff.mp hb
            apply List.ext_getElem (by simp)
            intro i i1 i2
            rw [List.getElem_set]
            split
            · rename_i hi; subst hi; exact h2.symm
            · rfl
          · rw [if_neg hle] at h; cases h

section
variable {z : B} {x r : Nat} {S : State B} {w0 : World B} {v : Val B}

/-- The source row while writes are being done. -/
theorem Done.source {l : Row B} {k : Nat} {w : World B} (D : Done z x r S w0 v l k w) (hx : S[x]? = some (some v)) {y s : Nat} {vy : Val B}
    (hy : S[y]? = some (some vy)) {src : Row B} (hsrc : vy.rows[s]? = some src) :
    ∃ (u : Val B) (src' : Row B), (BcrsWorld.run z S ((l.take k).map (wop x r)))[y]? = some (some u) ∧ u.rows[s]? = some src' ∧
      (∀ (i c : Nat) (b : B), src[i]? = some (c, b) → c ∉ columns (l.take k) → src'[i]? = some (c, b)) ∧ src'.length = src.length := by
  by_cases hxy : y = x
  · subst hxy
    rw [hx] at hy
    simp only [Option.some.injEq] at hy
    subst hy
    refine ⟨_, if r = s then puts (l.take k) src else src, D.val, ?_, ?_, ?_⟩
    · simp only [List.getElem?_modify, hsrc]
      split <;> rfl
    · intro i c b hi hc
      split
      · exact puts_get hi hc
      · exact hi
    · split
      · simp [puts, combined]
      · rfl
  · obtain ⟨u', q1, q2, q3, q4⟩ := run_other z ((l.take k).map (wop x r)) S D.ok (get_iff.mpr hy) (by
      intro op hop
      obtain ⟨e, -, rfl⟩ := List.mem_map.mp hop
      simp only [wop, target, ne_eq, Option.some.injEq]
      exact fun h => hxy h.symm)
    exact ⟨u', src, get_iff.mp q1, by rw [q4]; exact hsrc, fun i c b h _ => h, rfl⟩

theorem notin_take {l : Row B} (hl : (columns l).Nodup) {k c : Nat} (hk : (columns l)[k]? = some c) : c ∉ columns (l.take k) := by
  intro h
  unfold columns at h hk hl
  rw [List.map_take] at h
  obtain ⟨i, hi, he⟩ := List.mem_iff_getElem.mp h
  rw [List.getElem_take] at he
  obtain ⟨h1, h2⟩ := List.getElem?_eq_some_iff.mp hk
  rw [List.length_take] at hi
  have := (List.Nodup.getElem_inj_iff hl (hi := by omega) (hj := h1)).1 (he.trans h2.symm)
  omega

theorem Done.start (I : Inv z w0 S) (hx : S[x]? = some (some v)) (l : Row B) : Done z x r S w0 v l 0 w0 := by
  refine ⟨rfl, I, trivial, rfl, ?_⟩
  simp only [List.take_zero, List.map_nil, BcrsWorld.run, List.foldl_nil]
  rw [hx]
  have : v.rows.modify r (puts []) = v.rows := by
    apply List.ext_getElem?
    intro i
    simp only [List.getElem?_modify]
    split
    · cases v.rows[i]? <;> simp [puts_nil]
    · simp
  rw [this]

theorem nodup_asc {row : Row B} (h : Row.Asc row) : (columns row).Nodup := List.Pairwise.imp (fun h => Nat.ne_of_lt h) h

/-- `A_x[r] = k`, `A_x[r] *= k`. -/
theorem map_loop (I : Inv z w0 S) (hx : S[x]? = some (some v)) {row : Row B} (hrow : v.rows[r]? = some row) (f : B → B) :
    ∃ w, rowMap f x r w0 = .ok w ∧ Done z x r S w0 v (row.map fun e => (e.1, f e.2)) row.length w := by
  obtain ⟨o, ws, win, ho, hws, hwin, href⟩ := rowRef_ok I hx hrow
  obtain ⟨hsz, -, hasc, -⟩ := read_entry I hx ho hws hwin hrow
  have hcols : columns (row.map fun e => (e.1, f e.2)) = columns row := by simp [columns, Function.comp_def]
  have hnd : (columns (row.map fun e => (e.1, f e.2))).Nodup := hcols ▸ nodup_asc hasc
  unfold rowMap
  rw [href, Res.ok_bind, hsz]
  refine forRangeM_inv _ _ (fun k w => Done z x r S w0 v (row.map fun e => (e.1, f e.2)) k w) _ (Done.start I hx _) ?_
  intro k w hk D
  have hr : row[k]? = some (row[k].1, row[k].2) := List.getElem?_eq_getElem hk
  obtain ⟨-, h2, w', h3, h4⟩ := D.put hnd ho hws hwin hrow (e := (row[k].1, f row[k].2)) (by simp [hk]) (q := k) hr
  exact ⟨w', by rw [h2, Res.ok_bind]; exact h3, h4⟩

/-- `A_x[r] = A_y[s]` for rows with the same columns. -/
theorem copy_loop (I : Inv z w0 S) (hx : S[x]? = some (some v)) {row : Row B} (hrow : v.rows[r]? = some row) {y s : Nat} {vy : Val B}
    (hy : S[y]? = some (some vy)) {src : Row B} (hsrc : vy.rows[s]? = some src) (hcol : columns src = columns row) (hne : ¬(x = y ∧ r = s)) :
    ∃ w, rowCopy x r y s w0 = .ok w ∧ Done z x r S w0 v src src.length w := by
  obtain ⟨o, ws, win, ho, hws, hwin, href⟩ := rowRef_ok I hx hrow
  obtain ⟨o', ws', win', ho', hws', hwin', href'⟩ := rowRef_ok I hy hsrc
  obtain ⟨hsz, -, hasc, -⟩ := read_entry I hx ho hws hwin hrow
  have hnd : (columns src).Nodup := hcol ▸ nodup_asc hasc
  have hlen : src.length = row.length := by
    have := congrArg List.length hcol
    simpa [columns] using this
  obtain ⟨w1, l1, D1⟩ := forRangeM_inv src.length (fun i w => do
      let b ← (cell win' i).deref w.h
      put w (cell win i) b) (fun k w => Done z x r S w0 v src k w) w0 (Done.start I hx _) (by
    intro k w hk D
    obtain ⟨u, src', q1, q2, q3, q4⟩ := D.source hx hy hsrc
    have hs : src[k]? = some (src[k].1, src[k].2) := List.getElem?_eq_getElem hk
    have hs' := q3 k _ _ hs (notin_take hnd (by simp [columns, hk]))
    obtain ⟨-, -, -, hre⟩ := read_entry D.inv q1 (D.objs ▸ ho') hws' hwin' q2
    have hr : row[k]? = some (src[k].1, row[k].2) := by
      have : (columns src)[k]? = (columns row)[k]? := by rw [hcol]
      simp only [columns, List.getElem?_map, List.getElem?_eq_getElem hk, List.getElem?_eq_getElem (hlen ▸ hk), Option.map_some, Option.some.injEq] at this
      rw [List.getElem?_eq_getElem (hlen ▸ hk), this]
    obtain ⟨-, -, w', h3, h4⟩ := D.put hnd ho hws hwin hrow hs (q := k) hr
    exact ⟨w', by rw [(hre k _ _ hs').2, Res.ok_bind]; exact h3, h4⟩)
  refine ⟨w1, ?_, D1⟩
  unfold rowCopy
  rw [href, Res.ok_bind, href', Res.ok_bind, if_neg hne, hsz, ← hlen]
  simp only [l1, Res.ok_bind]
  -- the indices
  have hrow1 : ({ v with rows := v.rows.modify r (puts (src.take src.length)) } : Val B).rows[r]? = some (puts (src.take src.length) row) := by
    simp [List.getElem?_modify, hrow]
  obtain ⟨t1, t2, t3, t4⟩ := read_entry D1.inv D1.val (D1.objs ▸ ho) hws hwin hrow1
  obtain ⟨u, src', q1, q2, q3, q4⟩ := D1.source hx hy hsrc
  obtain ⟨-, -, -, hre⟩ := read_entry D1.inv q1 (D1.objs ▸ ho') hws' hwin' q2
  have hcs : columns src' = columns src := by
    by_cases hxy : y = x
    · subst hxy
      rw [D1.val] at q1
      simp only [Option.some.injEq] at q1
      subst q1
      rw [hx] at hy
      simp only [Option.some.injEq] at hy
      subst hy
      have hrs : r ≠ s := fun h => hne ⟨rfl, h⟩
      simp only [List.getElem?_modify, if_neg hrs, hsrc] at q2
      simp only [Option.map_eq_map, Option.map_some, Option.some.injEq, id] at q2
      rw [← q2]
    · obtain ⟨u', a1, a2, a3, a4⟩ := run_other z ((src.take src.length).map (wop x r)) S D1.ok (get_iff.mpr hy) (by
        intro op hop
        obtain ⟨e, -, rfl⟩ := List.mem_map.mp hop
        simp only [wop, target, ne_eq, Option.some.injEq]
        exact fun h => hxy h.symm)
      rw [get_iff.mp a1] at q1
      simp only [Option.some.injEq] at q1
      subst q1
      rw [a4, hsrc] at q2
      simp only [Option.some.injEq] at q2
      rw [q2]
  obtain ⟨w2, l2, e2⟩ := forRangeM_inv src.length (fun i w => do
      let c ← (cell win' i).index w.h
      let js ← w.h.js.write (shift win.j i) [c]
      .ok { w with h := { w.h with js := js } }) (fun k (w : World B) => w = w1) w1 rfl (by
    rintro k w hk rfl
    have hk' : k < src'.length := by omega
    have hs' : src'[k]? = some (src'[k].1, src'[k].2) := List.getElem?_eq_getElem hk'
    refine ⟨w, ?_, rfl⟩
    rw [(hre k _ _ hs').1, Res.ok_bind]
    have hpl : (puts (src.take src.length) row).length = row.length := by simp [puts, combined]
    obtain ⟨cx, c1, c2, c3⟩ := read_at t2 (q := k) (by omega)
    have hcx : cx = src'[k].1 := by
      have e1 : ((puts (src.take src.length) row).map Prod.fst)[k]? = (columns src')[k]? := by
        rw [hcs, hcol]; exact congrArg (·[k]?) (puts_columns _ _)
      rw [c1] at e1
      simp only [columns, List.getElem?_map, hs', Option.map_some, Option.some.injEq] at e1
      exact e1
    have hw := c3 cx
    have hset : ((puts (src.take src.length) row).map Prod.fst).set k cx = (puts (src.take src.length) row).map Prod.fst := by
      obtain ⟨g1, g2⟩ := List.getElem?_eq_some_iff.mp c1
      rw [← g2, List.set_getElem_self]
    rw [hset, write_same t2 (by rw [t1]; simp)] at hw
    rw [hcx] at hw
    unfold shift
    rw [hw]; rfl)
  exact e2 ▸ l2

/-- The values `A_x[r] += A_y[s]` writes. -/
def newVals (f : B → B → B) (row src : Row B) : Row B :=
  src.map fun e => (e.1, match valueAt row e.1 with | some a => f a e.2 | none => e.2)

theorem newVals_columns (f : B → B → B) (row src : Row B) : columns (newVals f row src) = columns src := by
  simp [columns, newVals, Function.comp_def]

/-- `A_x[r] += A_y[s]` as long as the columns are there. -/
theorem combine_steps (I : Inv z w0 S) (hx : S[x]? = some (some v)) {row : Row B} (hrow : v.rows[r]? = some row) {y s : Nat} {vy : Val B}
    (hy : S[y]? = some (some vy)) {src : Row B} (hsrc : vy.rows[s]? = some src) (f : B → B → B) {o o' : Obj B} {ws ws' : List Win} {win win' : Win}
    (ho : w0.objs[x]? = some (some o)) (hws : RowsAre o ws) (hwin : ws[r]? = some win)
    (ho' : w0.objs[y]? = some (some o')) (hws' : RowsAre o' ws') (hwin' : ws'[s]? = some win') (n : Nat) (hn : n ≤ src.length)
    (hsub : ∀ k (h : k < n), row.Has src[k].1) :
    ∃ w, forRangeM n (fun i w => do
      let c ← (cell win' i).index w.h
      let it ← access w.h win c
      let old ← it.deref w.h
      let new ← (cell win' i).deref w.h
      put w it (f old new)) w0 = .ok w ∧ Done z x r S w0 v (newVals f row src) n w := by
  obtain ⟨-, -, hascs, -⟩ := read_entry I hy ho' hws' hwin' hsrc
  obtain ⟨-, -, hasc, -⟩ := read_entry I hx ho hws hwin hrow
  have hnd : (columns (newVals f row src)).Nodup := newVals_columns f row src ▸ nodup_asc hascs
  refine forRangeM_inv _ _ (fun k w => Done z x r S w0 v (newVals f row src) k w) _ (Done.start I hx _) ?_
  intro k w hk D
  have hks : k < src.length := by omega
  obtain ⟨u, src', q1, q2, q3, -⟩ := D.source hx hy hsrc
  have hs : src[k]? = some (src[k].1, src[k].2) := List.getElem?_eq_getElem hks
  have hs' := q3 k _ _ hs (notin_take hnd (by rw [newVals_columns]; simp [columns, hks]))
  obtain ⟨-, -, -, hre⟩ := read_entry D.inv q1 (D.objs ▸ ho') hws' hwin' q2
  have hrow1 : ({ v with rows := v.rows.modify r (puts ((newVals f row src).take k)) } : Val B).rows[r]? = some (puts ((newVals f row src).take k) row) := by
    simp [List.getElem?_modify, hrow]
  obtain ⟨t1, t2, t3, t4⟩ := read_entry D.inv D.val (D.objs ▸ ho) hws hwin hrow1
  obtain ⟨b0, hb0⟩ := hsub k hk
  obtain ⟨q, hq, hqe⟩ := List.mem_iff_getElem.mp hb0
  have hq' : row[q]? = some (src[k].1, b0) := by rw [List.getElem?_eq_getElem hq, hqe]
  have hacc := (access_eq t1 t2 t3 src[k].1).1 q b0 (puts_get hq' (notin_take hnd (by rw [newVals_columns]; simp [columns, hks])))
  have hval : valueAt row src[k].1 = some b0 := (valueAt_some (nodup_asc hasc)).2 hb0
  obtain ⟨-, h2, w', h3, h4⟩ := D.put hnd ho hws hwin hrow (e := (src[k].1, f b0 src[k].2)) (by
    simp [newVals, hks, hval]) (q := q) hq'
  refine ⟨w', ?_, h4⟩
  rw [(hre k _ _ hs').1, Res.ok_bind, hacc, Res.ok_bind, h2, Res.ok_bind, (hre k _ _ hs').2, Res.ok_bind]
  exact h3

end
end RowStmt
end Istl
