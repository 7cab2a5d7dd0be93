import Verif.Spec.RowProg
import Verif.Lemmas.RowStmt2

/-! Lemmas for C103. -/

namespace Istl
namespace RowStmt
open Bcrs BcrsWorld Iter
variable {B : Type}

theorem rowOf_iff {S : State B} {x r : Nat} {row : Row B} : rowOf S x r = some row ↔ ∃ v, S[x]? = some (some v) ∧ v.rows[r]? = some row := by
  unfold rowOf
  cases h : S.get x with
  | none =>
    simp only [Option.bind_none, reduceCtorEq, false_iff]
    rintro ⟨v, hv, -⟩
    rw [get_iff.mpr hv] at h
    exact absurd h (by simp)
  | some v =>
    rw [Option.bind_some]
    constructor
    · intro hr; exact ⟨v, get_iff.mp h, hr⟩
    · rintro ⟨u, hu, hr⟩
      rw [get_iff.mpr hu] at h
      simp only [Option.some.injEq] at h
      exact h ▸ hr

theorem run_wops (z : B) (x r : Nat) (l : List (Nat × B)) : ∀ S : State B, ∃ F, BcrsWorld.run z S (l.map (wop x r)) = S.upd x F := by
  induction l with
  | nil => intro S; exact ⟨id, by simp [BcrsWorld.run, State.upd]⟩
  | cons e l ih =>
    intro S
    obtain ⟨F, hF⟩ := ih (S.upd x fun v => { v with rows := v.rows.modify r (mapAt e.1 fun _ => e.2) })
    refine ⟨F ∘ fun v => { v with rows := v.rows.modify r (mapAt e.1 fun _ => e.2) }, ?_⟩
    have : BcrsWorld.run z S ((e :: l).map (wop x r)) =
        BcrsWorld.run z (S.upd x fun v => { v with rows := v.rows.modify r (mapAt e.1 fun _ => e.2) }) (l.map (wop x r)) := rfl
    rw [this, hF]
    unfold State.upd
    rw [List.modify_modify_eq]
    congr 1
    funext o
    cases o <;> rfl

/-- A finished row statement leaves the state with the new row. -/
theorem Done.state {z : B} {x r : Nat} {S : State B} {w0 w : World B} {v : Val B} {l : Row B} {k : Nat} (D : Done z x r S w0 v l k w)
    (hx : S[x]? = some (some v)) {g : Row B → Row B} {row : Row B} (hrow : v.rows[r]? = some row) (hg : puts (l.take k) row = g row) :
    Inv z w (inRow S x r g) := by
  have I := D.inv
  obtain ⟨F, hF⟩ := run_wops z x r (l.take k) S
  have hv := D.val
  have hxl := (List.getElem?_eq_some_iff.mp hx).1
  rw [hF, upd_eq S hx, List.getElem?_set_self hxl] at hv
  simp only [Option.some.injEq] at hv
  rw [hF, upd_eq S hx, hv] at I
  unfold inRow
  rw [upd_eq S hx]
  have : v.rows.modify r (puts (l.take k)) = v.rows.modify r g := by
    apply List.ext_getElem?
    intro i
    simp only [List.getElem?_modify]
    split
    · rename_i hi; subst hi; rw [hrow]; simp [hg]
    · rfl
  rw [this] at I
  exact I

theorem puts_map {row : Row B} (hasc : Row.Asc row) (f : B → B) : puts (row.map fun e => (e.1, f e.2)) row = mapVals f row := by
  unfold puts combined mapVals
  apply List.map_congr_left
  intro p hp
  have : valueAt (row.map fun e => (e.1, f e.2)) p.1 = some (f p.2) := by
    refine (valueAt_some ?_).2 (List.mem_map.2 ⟨p, hp, rfl⟩)
    have : columns (row.map fun e => (e.1, f e.2)) = columns row := by simp [columns, Function.comp_def]
    exact this ▸ nodup_asc hasc
  rw [this]

theorem newVals_take (f : B → B → B) (row src : Row B) (k : Nat) : (newVals f row src).take k = newVals f row (src.take k) := by
  simp [newVals, List.map_take]

theorem puts_newVals {row src : Row B} (hasc : Row.Asc row) (hnd : (columns src).Nodup) (f : B → B → B) :
    puts (newVals f row src) row = combined f src row := by
  have hnd' : (columns (newVals f row src)).Nodup := newVals_columns f row src ▸ hnd
  unfold puts combined
  apply List.map_congr_left
  intro p hp
  cases hsv : valueAt src p.1 with
  | none =>
    have : valueAt (newVals f row src) p.1 = none := by
      rw [valueAt_none, newVals_columns]; exact valueAt_none.1 hsv
    rw [this]
  | some b =>
    have hm := (valueAt_some hnd).1 hsv
    have hp2 : valueAt row p.1 = some p.2 := (valueAt_some (nodup_asc hasc)).2 hp
    have : valueAt (newVals f row src) p.1 = some (f p.2 b) := by
      refine (valueAt_some hnd').2 (List.mem_map.2 ⟨_, hm, ?_⟩)
      simp [hp2]
    rw [this]

theorem puts_same {row src : Row B} (hnd : (columns src).Nodup) (hcol : columns src = columns row) : puts src row = src := by
  have hlen : src.length = row.length := by
    have := congrArg List.length hcol
    simpa [columns] using this
  apply List.ext_getElem (by simp [puts, combined, hlen])
  intro i i1 i2
  have ir : i < row.length := by omega
  have hci : src[i].1 = row[i].1 := by
    have : (columns src)[i]? = (columns row)[i]? := by rw [hcol]
    simpa [columns, List.getElem?_eq_getElem i2, List.getElem?_eq_getElem ir] using this
  have : valueAt src row[i].1 = some src[i].2 := (valueAt_some hnd).2 (by rw [← hci]; exact List.getElem_mem i2)
  simp only [puts, combined, List.getElem_map, this]
  exact Prod.ext hci.symm rfl

theorem has_iff {row : Row B} {c : Nat} : row.Has c ↔ c ∈ columns row := by
  unfold Row.Has columns
  simp

theorem tryRangeM_ok {T : Type} {f : Nat → T → Res T} {s s' : T} {n : Nat} (h : forRangeM n f s = .ok s') : tryRangeM n f s = .ok (s', false) := by
  induction n generalizing s' with
  | zero => simp only [forRangeM_zero, Res.ok.injEq] at h; subst h; rfl
  | succ n ih =>
    rw [forRangeM_succ] at h
    cases h1 : forRangeM n f s with
    | ok t =>
      rw [h1, Res.ok_bind] at h
      simp only [tryRangeM, ih h1, Res.ok_bind, h]
      rfl
    | throw e => rw [h1] at h; exact absurd h (by intro h; cases h)
    | ub => rw [h1] at h; exact absurd h (by intro h; cases h)

theorem tryRangeM_stop {T : Type} {f : Nat → T → Res T} {s s' : T} {e : Exc} {k : Nat} (h1 : forRangeM k f s = .ok s') (h2 : f k s' = .throw e) :
    ∀ n, k < n → tryRangeM n f s = .ok (s', true) := by
  intro n
  induction n with
  | zero => intro h; omega
  | succ n ih =>
    intro h
    by_cases hk : k = n
    · subst hk
      simp only [tryRangeM, tryRangeM_ok h1, Res.ok_bind, h2]
      rfl
    · simp only [tryRangeM, ih (by omega), Res.ok_bind]
      rfl

section
variable {z : B} {x r : Nat} {S : State B} {w0 : World B} {v : Val B}

/-- The loop of `A_x[r] += A_y[s]` up to the first missing column, and what happens there. -/
theorem combine_upto (I : Inv z w0 S) (hx : S[x]? = some (some v)) {row : Row B} (hrow : v.rows[r]? = some row) {y s : Nat} {vy : Val B}
    (hy : S[y]? = some (some vy)) {src : Row B} (hsrc : vy.rows[s]? = some src) (f : B → B → B) {o o' : Obj B} {ws ws' : List Win} {win win' : Win}
    (ho : w0.objs[x]? = some (some o)) (hws : RowsAre o ws) (hwin : ws[r]? = some win)
    (ho' : w0.objs[y]? = some (some o')) (hws' : RowsAre o' ws') (hwin' : ws'[s]? = some win') (n : Nat) (hn : n < src.length)
    (hsub : ∀ k (h : k < n), row.Has src[k].1) (hno : ¬row.Has (src[n]'hn).1) :
    ∃ w, forRangeM n (fun i w => do
      let c ← (cell win' i).index w.h
      let it ← access w.h win c
      let old ← it.deref w.h
      let new ← (cell win' i).deref w.h
      put w it (f old new)) w0 = .ok w ∧ Done z x r S w0 v (newVals f row src) n w ∧
      ((do
        let c ← (cell win' n).index w.h
        let it ← access w.h win c
        let old ← it.deref w.h
        let new ← (cell win' n).deref w.h
        put w it (f old new)) : Res (World B)) = .throw .istlError := by
  obtain ⟨-, -, hascs, -⟩ := read_entry I hy ho' hws' hwin' hsrc
  obtain ⟨w', h1, D⟩ := combine_steps I hx hrow hy hsrc f ho hws hwin ho' hws' hwin' n (Nat.le_of_lt hn) hsub
  have hnd : (columns (newVals f row src)).Nodup := newVals_columns f row src ▸ nodup_asc hascs
  obtain ⟨u, src', q1, q2, q3, -⟩ := Done.source D hx hy hsrc
  have hs' := q3 _ _ _ (List.getElem?_eq_getElem hn) (notin_take hnd (by rw [newVals_columns]; simp [columns, hn]))
  obtain ⟨-, -, -, hre⟩ := read_entry D.inv q1 (D.objs ▸ ho') hws' hwin' q2
  have hrow1 : ({ v with rows := v.rows.modify r (puts ((newVals f row src).take n)) } : Val B).rows[r]? =
      some (puts ((newVals f row src).take n) row) := by
    simp [List.getElem?_modify, hrow]
  obtain ⟨t1, t2, t3, -⟩ := read_entry D.inv D.val (D.objs ▸ ho) hws hwin hrow1
  have hacc := (access_eq t1 t2 t3 (src[n]'hn).1).2 (by
    rintro ⟨b, hb⟩
    apply hno
    have : (src[n]'hn).1 ∈ columns row := by
      rw [← puts_columns ((newVals f row src).take n) row]
      exact List.mem_map.2 ⟨_, hb, rfl⟩
    exact has_iff.2 this)
  refine ⟨w', h1, D, ?_⟩
  rw [(hre _ _ _ hs').1, Res.ok_bind]
  change (access w'.h win (src[n]'hn).1 >>= _) = _
  rw [hacc]
  rfl

theorem map_inv (I : Inv z w0 S) {row : Row B} (hrow : rowOf S x r = some row) (f : B → B) :
    ∃ w, rowMap f x r w0 = .ok w ∧ Inv z w (inRow S x r (mapVals f)) := by
  obtain ⟨v, hx, hr⟩ := rowOf_iff.1 hrow
  obtain ⟨w, h1, D⟩ := map_loop I hx hr f
  obtain ⟨o, ho, R⟩ := I.rep x v hx
  refine ⟨w, h1, D.state hx hr ?_⟩
  rw [List.take_of_length_le (by simp)]
  exact puts_map (R.asc row (List.mem_of_getElem? hr)) f

theorem combine_inv (I : Inv z w0 S) {row src : Row B} {y s : Nat} (hrow : rowOf S x r = some row) (hsrc : rowOf S y s = some src)
    (hsub : ∀ c ∈ columns src, c ∈ columns row) (f : B → B → B) :
    ∃ w, rowCombine f x r y s w0 = .ok w ∧ rowTryCombine f x r y s w0 = .ok w ∧ Inv z w (inRow S x r (combined f src)) := by
  obtain ⟨v, hx, hr⟩ := rowOf_iff.1 hrow
  obtain ⟨vy, hy, hs⟩ := rowOf_iff.1 hsrc
  obtain ⟨o, ws, win, ho, hws, hwin, href⟩ := rowRef_ok I hx hr
  obtain ⟨o', ws', win', ho', hws', hwin', href'⟩ := rowRef_ok I hy hs
  obtain ⟨hsz, -, hascs, -⟩ := read_entry I hy ho' hws' hwin' hs
  obtain ⟨-, -, hasc, -⟩ := read_entry I hx ho hws hwin hr
  obtain ⟨w', h1, D⟩ := combine_steps I hx hr hy hs f ho hws hwin ho' hws' hwin' src.length (le_refl _)
    fun k hk => has_iff.2 (hsub _ (List.mem_map.2 ⟨_, List.getElem_mem hk, rfl⟩))
  refine ⟨w', ?_, ?_, D.state hx hr ?_⟩
  · unfold rowCombine
    rw [href, Res.ok_bind, href', Res.ok_bind, hsz]
    exact h1
  · unfold rowTryCombine
    rw [href, Res.ok_bind, href', Res.ok_bind, hsz, tryRangeM_ok h1]
    rfl
  · rw [List.take_of_length_le (by simp [newVals])]
    exact puts_newVals hasc (nodup_asc hascs) f

theorem tryCombine_inv (I : Inv z w0 S) {row src : Row B} {y s : Nat} (hrow : rowOf S x r = some row) (hsrc : rowOf S y s = some src)
    (f : B → B → B) : ∃ w, rowTryCombine f x r y s w0 = .ok w ∧ Inv z w (inRow S x r fun row => combined f (common src row) row) := by
  obtain ⟨v, hx, hr⟩ := rowOf_iff.1 hrow
  by_cases hsub : ∀ c ∈ columns src, c ∈ columns row
  · obtain ⟨w, -, h2, h3⟩ := combine_inv I hrow hsrc hsub f
    refine ⟨w, h2, ?_⟩
    have hc : common src row = src := by
      unfold common
      rw [List.takeWhile_eq_self_iff]
      intro e he
      simpa using hsub _ (List.mem_map.2 ⟨e, he, rfl⟩)
    have : inRow S x r (fun row => combined f (common src row) row) = inRow S x r (combined f src) := by
      unfold inRow
      rw [upd_eq S hx, upd_eq S hx]
      congr 3
      apply List.ext_getElem?
      intro i
      simp only [List.getElem?_modify]
      split
      · rename_i hi; subst hi; rw [hr]; simp [hc]
      · rfl
    rw [this]
    exact h3
  · obtain ⟨vy, hy, hs⟩ := rowOf_iff.1 hsrc
    obtain ⟨o, ws, win, ho, hws, hwin, href⟩ := rowRef_ok I hx hr
    obtain ⟨o', ws', win', ho', hws', hwin', href'⟩ := rowRef_ok I hy hs
    obtain ⟨hsz, -, hascs, -⟩ := read_entry I hy ho' hws' hwin' hs
    obtain ⟨-, -, hasc, -⟩ := read_entry I hx ho hws hwin hr
    have hn : (common src row).length < src.length := by
      have h1 : (common src row).length ≤ src.length := (List.takeWhile_sublist _).length_le
      refine Nat.lt_of_le_of_ne h1 fun he => hsub ?_
      have := (List.takeWhile_sublist (fun e : Nat × B => decide (e.1 ∈ columns row)) (l := src)).eq_of_length he
      intro c hc
      obtain ⟨e, he, rfl⟩ := List.mem_map.1 hc
      rw [← this] at he
      simpa using List.mem_takeWhile_imp he
    have htake : src.take (common src row).length = common src row := (List.prefix_iff_eq_take.1 (List.takeWhile_prefix _)).symm
    obtain ⟨w', h1, D, h2⟩ := combine_upto I hx hr hy hs f ho hws hwin ho' hws' hwin' (common src row).length hn
      (fun k hk => by
        have : src[k]'(by omega) = (common src row)[k] := by
          have : (src.take (common src row).length)[k]? = (common src row)[k]? := by rw [htake]
          rw [List.getElem?_take_of_lt hk, List.getElem?_eq_getElem (by omega), List.getElem?_eq_getElem hk] at this
          exact Option.some.inj this
        rw [this]
        have hm : (common src row)[k] ∈ common src row := List.getElem_mem hk
        exact has_iff.2 (by simpa using List.mem_takeWhile_imp hm))
      (by
        intro h
        have := List.takeWhile_append_dropWhile (p := fun e : Nat × B => decide (e.1 ∈ columns row)) (l := src)
        have hd : src.dropWhile (fun e => decide (e.1 ∈ columns row)) ≠ [] := by
          intro he
          rw [he, List.append_nil] at this
          have := congrArg List.length this
          unfold common at hn
          omega
        have hnot := List.head_dropWhile_not (fun e : Nat × B => decide (e.1 ∈ columns row)) hd
        have hg : src[(common src row).length]? = some ((src.dropWhile (fun e => decide (e.1 ∈ columns row))).head hd) := by
          have ha : ∀ (a b : Row B) (hb : b ≠ []), (a ++ b)[a.length]? = some (b.head hb) := by
            intro a b hb
            rw [List.getElem?_append_right (le_refl _), Nat.sub_self, List.head_eq_getElem, List.getElem?_eq_getElem]
          have := this ▸ ha (common src row) _ hd
          exact this
        rw [List.getElem?_eq_getElem hn] at hg
        rw [← Option.some.inj hg] at hnot
        simp [has_iff.1 h] at hnot)
    refine ⟨w', ?_, D.state hx hr ?_⟩
    · unfold rowTryCombine
      rw [href, Res.ok_bind, href', Res.ok_bind, hsz, tryRangeM_stop h1 h2 _ hn]
      rfl
    · rw [newVals_take, htake]
      refine puts_newVals hasc ?_ f
      exact (nodup_asc hascs).sublist ((List.takeWhile_sublist _).map _)

theorem copy_inv (I : Inv z w0 S) {row src : Row B} {y s : Nat} (hrow : rowOf S x r = some row) (hsrc : rowOf S y s = some src)
    (hcol : columns src = columns row) : ∃ w, rowCopy x r y s w0 = .ok w ∧ Inv z w (inRow S x r fun _ => src) := by
  obtain ⟨v, hx, hr⟩ := rowOf_iff.1 hrow
  obtain ⟨vy, hy, hs⟩ := rowOf_iff.1 hsrc
  by_cases hne : x = y ∧ r = s
  · obtain ⟨rfl, rfl⟩ := hne
    obtain ⟨o, ws, win, ho, hws, hwin, href⟩ := rowRef_ok I hx hr
    refine ⟨w0, ?_, ?_⟩
    · unfold rowCopy
      rw [href, Res.ok_bind, Res.ok_bind, if_pos ⟨rfl, rfl⟩]
    · have hrs : row = src := Option.some.inj (hrow.symm.trans hsrc)
      subst hrs
      have : inRow S x r (fun _ => row) = S := by
        unfold inRow
        rw [upd_eq S hx]
        have : v.rows.modify r (fun _ => row) = v.rows := by
          apply List.ext_getElem?
          intro i
          simp only [List.getElem?_modify]
          split
          · rename_i hi; subst hi; rw [hr]; rfl
          · simp
        rw [this]
        obtain ⟨g1, g2⟩ := List.getElem?_eq_some_iff.mp hx
        change S.set x (some v) = S
        rw [← g2, List.set_getElem_self]
      rw [this]
      exact I
  · obtain ⟨w', h1, D⟩ := copy_loop I hx hr hy hs hcol hne
    obtain ⟨o, ho, R⟩ := I.rep y vy hy
    refine ⟨w', h1, D.state hx hr ?_⟩
    rw [List.take_length]
    exact puts_same (nodup_asc (R.asc src (List.mem_of_getElem? hs))) hcol

/-- One statement. -/
theorem exec_inv {w : World B} (I : Inv z w S) (st : Stmt B) (hv : Allowed S st) : ∃ w', exec w st = .ok w' ∧ Inv z w' (applyStmt z S st) := by
  cases st with
  | whole op => exact step_inv I op hv
  | map f x r => obtain ⟨row, h⟩ := hv; exact map_inv I h f
  | combine f x r y s =>
    obtain ⟨row, src, h1, h2, h3⟩ := hv
    obtain ⟨w', a, -, b⟩ := combine_inv I h1 h2 h3 f
    refine ⟨w', a, ?_⟩
    simp only [applyStmt, h2, Option.getD_some]
    exact b
  | tryCombine f x r y s =>
    obtain ⟨row, src, h1, h2⟩ := hv
    obtain ⟨w', a, b⟩ := tryCombine_inv I h1 h2 f
    refine ⟨w', a, ?_⟩
    simp only [applyStmt, h2, Option.getD_some]
    exact b
  | copy x r y s =>
    obtain ⟨row, src, h1, h2, h3⟩ := hv
    obtain ⟨w', a, b⟩ := copy_inv I h1 h2 h3
    refine ⟨w', a, ?_⟩
    simp only [applyStmt, h2, Option.getD_some]
    exact b

theorem prog_inv (prog : List (Stmt B)) : ∀ {w : World B} {S : State B}, Inv z w S → AllAllowed z S prog →
    ∃ w', prog.foldlM exec w = .ok w' ∧ Inv z w' (runStmts z S prog) := by
  induction prog with
  | nil => intro w S I _; exact ⟨w, rfl, I⟩
  | cons st rest ih =>
    intro w S I hv
    obtain ⟨w1, e1, I1⟩ := exec_inv I st hv.1
    obtain ⟨w2, e2, I2⟩ := ih I1 hv.2
    exact ⟨w2, by rw [List.foldlM_cons, e1]; exact e2, I2⟩

end
end RowStmt
end Istl
