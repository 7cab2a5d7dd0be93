import Verif.Lemmas.RowStmt2

/-!
# C102: statements on rows of matrices

`A[r] = k`, `A[r] *= k`, `A[r] += B[s]`, `A[r] = B[s]` after any program over any number of matrices.
-/

namespace Istl
namespace RowStmt
open Bcrs BcrsWorld Iter
variable {B : Type}

/-- What is left of a world after a statement on a row: `A_x` has the given rows, all other matrices look as before, and the world is one that
a program reaches (`more` are assignments of entries). -/
structure Changed (h : Heap B) (z : B) (ops : List (Op B)) (w w' : World B) (x : Nat) (v : Val B) (rows : List (Row B)) : Prop where
  shown : see w' x = .ok (v.n, v.m, rows)
  others : ∀ k u, k ≠ x → (run z [] ops).get k = some u → see w k = .ok (u.n, u.m, u.rows) ∧ see w' k = .ok (u.n, u.m, u.rows)
  program : ∃ more, AllValid z [] (ops ++ more) ∧ (ops ++ more).foldlM step ⟨h, []⟩ = .ok w'

theorem Done.changed {h : Heap B} {z : B} {ops : List (Op B)} {w w' : World B} {x r : Nat} {v : Val B} {l : Row B} {k : Nat}
    (e : ops.foldlM step ⟨h, []⟩ = .ok w) (I : Inv z w (run z [] ops)) (hok : AllValid z [] ops) (D : Done z x r (run z [] ops) w v l k w') :
    Changed h z ops w w' x v (v.rows.modify r (puts (l.take k))) := by
  refine ⟨D.inv.see (get_iff.mpr D.val), fun q u hq hu => ⟨I.see hu, ?_⟩, (l.take k).map (wop x r), (allValid_append z [] ops _).2 ⟨hok, D.ok⟩, ?_⟩
  · obtain ⟨u', q1, q2, q3, q4⟩ := run_other z ((l.take k).map (wop x r)) (run z [] ops) D.ok hu (by
      intro op hop
      obtain ⟨e, -, rfl⟩ := List.mem_map.mp hop
      simp only [wop, target, ne_eq, Option.some.injEq]
      exact fun h => hq h.symm)
    have := D.inv.see q1
    rw [q2, q3, q4] at this
    exact this
  · rw [List.foldlM_append, e]
    exact D.run

theorem modify_congr {rows : List (Row B)} {r : Nat} {row : Row B} (hr : rows[r]? = some row) {f g : Row B → Row B} (h : f row = g row) :
    rows.modify r f = rows.modify r g := by
  apply List.ext_getElem?
  intro i
  simp only [List.getElem?_modify]
  split
  · rename_i hi; subst hi; rw [hr]; simp [h]
  · rfl

/-- `A[r] = k`, `A[r] *= k`, `A[r] /= k`: every stored value of the row changes, nothing else. -/
theorem C102_map (h : Heap B) (z : B) (hd : h.dflt = z) (hv : h.vini = z) (ops : List (Op B)) (hok : AllValid z [] ops) (x r : Nat) (v : Val B)
    (hx : (run z [] ops).get x = some v) (row : Row B) (hrow : v.rows[r]? = some row) (f : B → B) :
    ∃ w w', ops.foldlM step ⟨h, []⟩ = .ok w ∧ rowMap f x r w = .ok w' ∧ Changed h z ops w w' x v (v.rows.modify r (mapVals f)) := by
  obtain ⟨w, e, I⟩ := run_inv ops (inv_start h z hd hv) hok
  obtain ⟨w', h1, D⟩ := map_loop I (get_iff.mp hx) hrow f
  refine ⟨w, w', e, h1, ?_⟩
  have hC := D.changed e I hok
  obtain ⟨o, ho, R⟩ := I.rep x v (get_iff.mp hx)
  have hasc := R.asc row (List.mem_of_getElem? hrow)
  rw [modify_congr hrow (g := mapVals f)] at hC
  · exact hC
  · rw [List.take_of_length_le (by simp)]
    unfold puts combined mapVals
    apply List.map_congr_left
    intro p hp
    have : valueAt (row.map fun e => (e.1, f e.2)) p.1 = some (f p.2) := by
      refine (valueAt_some ?_).2 (List.mem_map.2 ⟨p, hp, rfl⟩)
      have : columns (row.map fun e => (e.1, f e.2)) = columns row := by simp [columns, Function.comp_def]
      exact this ▸ nodup_asc hasc
    rw [this]

/-- `A[r] += B[s]`, `A[r] -= B[s]`, `A[r].axpy(a, B[s])` for any two rows, also of one matrix and also the same row: if every column of `B[s]`
is stored in `A[r]`, exactly the values in these columns change. -/
theorem C102_combine (h : Heap B) (z : B) (hd : h.dflt = z) (hv : h.vini = z) (ops : List (Op B)) (hok : AllValid z [] ops) (x r y s : Nat)
    (v vy : Val B) (hx : (run z [] ops).get x = some v) (hy : (run z [] ops).get y = some vy) (row src : Row B) (hrow : v.rows[r]? = some row)
    (hsrc : vy.rows[s]? = some src) (hsub : ∀ e ∈ src, row.Has e.1) (f : B → B → B) :
    ∃ w w', ops.foldlM step ⟨h, []⟩ = .ok w ∧ rowCombine f x r y s w = .ok w' ∧ Changed h z ops w w' x v (v.rows.modify r (combined f src)) := by
  obtain ⟨w, e, I⟩ := run_inv ops (inv_start h z hd hv) hok
  obtain ⟨o, ws, win, ho, hws, hwin, href⟩ := rowRef_ok I (get_iff.mp hx) hrow
  obtain ⟨o', ws', win', ho', hws', hwin', href'⟩ := rowRef_ok I (get_iff.mp hy) hsrc
  obtain ⟨hsz, -, hascs, -⟩ := read_entry I (get_iff.mp hy) ho' hws' hwin' hsrc
  obtain ⟨-, -, hasc, -⟩ := read_entry I (get_iff.mp hx) ho hws hwin hrow
  obtain ⟨w', h1, D⟩ := combine_steps I (get_iff.mp hx) hrow (get_iff.mp hy) hsrc f ho hws hwin ho' hws' hwin' src.length (le_refl _)
    fun k hk => hsub _ (List.getElem_mem hk)
  refine ⟨w, w', e, ?_, ?_⟩
  · unfold rowCombine
    rw [href, Res.ok_bind, href', Res.ok_bind, hsz]
    exact h1
  have hC := D.changed e I hok
  rw [modify_congr hrow (g := combined f src)] at hC
  · exact hC
  · rw [List.take_of_length_le (by simp [newVals])]
    unfold puts
    apply List.map_congr_left
    intro p hp
    have hnd : (columns (newVals f row src)).Nodup := newVals_columns f row src ▸ nodup_asc hascs
    cases hsv : valueAt src p.1 with
    | none =>
      have : valueAt (newVals f row src) p.1 = none := by
        rw [valueAt_none, newVals_columns]; exact valueAt_none.1 hsv
      rw [this]
    | some b =>
      have hm := (valueAt_some (nodup_asc hascs)).1 hsv
      have hp2 : valueAt row p.1 = some p.2 := (valueAt_some (nodup_asc hasc)).2 hp
      have : valueAt (newVals f row src) p.1 = some (f p.2 b) := by
        refine (valueAt_some hnd).2 (List.mem_map.2 ⟨_, hm, ?_⟩)
        simp [hp2]
      rw [this]

/-- If a column of `B[s]` is not stored in `A[r]`, `A[r] += B[s]` throws. -/
theorem C102_missing_throws (h : Heap B) (z : B) (hd : h.dflt = z) (hv : h.vini = z) (ops : List (Op B)) (hok : AllValid z [] ops) (x r y s : Nat)
    (v vy : Val B) (hx : (run z [] ops).get x = some v) (hy : (run z [] ops).get y = some vy) (row src : Row B) (hrow : v.rows[r]? = some row)
    (hsrc : vy.rows[s]? = some src) (hno : ∃ e ∈ src, ¬row.Has e.1) (f : B → B → B) :
    ∃ w, ops.foldlM step ⟨h, []⟩ = .ok w ∧ rowCombine f x r y s w = .throw .istlError := by
  classical
  obtain ⟨w, e, I⟩ := run_inv ops (inv_start h z hd hv) hok
  obtain ⟨o, ws, win, ho, hws, hwin, href⟩ := rowRef_ok I (get_iff.mp hx) hrow
  obtain ⟨o', ws', win', ho', hws', hwin', href'⟩ := rowRef_ok I (get_iff.mp hy) hsrc
  obtain ⟨hsz, -, hascs, -⟩ := read_entry I (get_iff.mp hy) ho' hws' hwin' hsrc
  -- the first one that is missing
  have hex : ∃ k, ∃ h : k < src.length, ¬row.Has src[k].1 := by
    obtain ⟨e, he, hn⟩ := hno
    obtain ⟨k, hk, rfl⟩ := List.mem_iff_getElem.mp he
    exact ⟨k, hk, hn⟩
  obtain ⟨hk, hn⟩ := Nat.find_spec hex
  have hmin : ∀ q (hq : q < Nat.find hex), row.Has (src[q]'(by omega)).1 := by
    intro q hq
    have := Nat.find_min hex hq
    by_contra hc
    exact this ⟨by omega, hc⟩
  obtain ⟨w', h1, D⟩ := combine_steps I (get_iff.mp hx) hrow (get_iff.mp hy) hsrc f ho hws hwin ho' hws' hwin' (Nat.find hex) (Nat.le_of_lt hk) hmin
  have hnd : (columns (newVals f row src)).Nodup := newVals_columns f row src ▸ nodup_asc hascs
  obtain ⟨u, src', q1, q2, q3, -⟩ := Done.source D (get_iff.mp hx) (get_iff.mp hy) hsrc
  have hs' := q3 _ _ _ (List.getElem?_eq_getElem hk) (notin_take hnd (by rw [newVals_columns]; simp [columns, hk]))
  obtain ⟨-, -, -, hre⟩ := read_entry D.inv q1 (D.objs ▸ ho') hws' hwin' q2
  have hrow1 : ({ v with rows := v.rows.modify r (puts ((newVals f row src).take (Nat.find hex))) } : Val B).rows[r]? =
      some (puts ((newVals f row src).take (Nat.find hex)) row) := by
    simp [List.getElem?_modify, hrow]
  obtain ⟨t1, t2, t3, -⟩ := read_entry D.inv D.val (D.objs ▸ ho) hws hwin hrow1
  have hacc := (access_eq t1 t2 t3 (src[Nat.find hex]'hk).1).2 (by
    rintro ⟨b, hb⟩
    apply hn
    have : (src[Nat.find hex]'hk).1 ∈ columns row := by
      rw [← puts_columns ((newVals f row src).take (Nat.find hex)) row]
      exact List.mem_map.2 ⟨_, hb, rfl⟩
    obtain ⟨p, hp, hpe⟩ := List.mem_map.1 this
    exact ⟨p.2, hpe ▸ hp⟩)
  refine ⟨w, e, ?_⟩
  unfold rowCombine
  rw [href, Res.ok_bind, href', Res.ok_bind, hsz]
  refine forRangeM_throw h1 ?_ _ hk
  rw [(hre _ _ _ hs').1, Res.ok_bind]
  change (access w'.h win (src[Nat.find hex]'hk).1 >>= _) = _
  rw [hacc]
  rfl

/-- `A[r] = B[s]` for rows with the same columns: `A[r]` becomes `B[s]`, nothing else changes. -/
theorem C102_copy (h : Heap B) (z : B) (hd : h.dflt = z) (hv : h.vini = z) (ops : List (Op B)) (hok : AllValid z [] ops) (x r y s : Nat)
    (v vy : Val B) (hx : (run z [] ops).get x = some v) (hy : (run z [] ops).get y = some vy) (row src : Row B) (hrow : v.rows[r]? = some row)
    (hsrc : vy.rows[s]? = some src) (hcol : columns src = columns row) :
    ∃ w w', ops.foldlM step ⟨h, []⟩ = .ok w ∧ rowCopy x r y s w = .ok w' ∧ Changed h z ops w w' x v (v.rows.set r src) := by
  obtain ⟨w, e, I⟩ := run_inv ops (inv_start h z hd hv) hok
  by_cases hne : x = y ∧ r = s
  · obtain ⟨rfl, rfl⟩ := hne
    obtain ⟨o, ws, win, ho, hws, hwin, href⟩ := rowRef_ok I (get_iff.mp hx) hrow
    refine ⟨w, w, e, ?_, ?_⟩
    · unfold rowCopy
      rw [href, Res.ok_bind, Res.ok_bind, if_pos ⟨rfl, rfl⟩]
    · have hvy : vy = v := by rw [hx] at hy; exact (Option.some.inj hy).symm
      subst hvy
      rw [hsrc] at hrow
      have hrs : src = row := Option.some.inj hrow
      have hset : vy.rows.set r src = vy.rows := by
        obtain ⟨g1, g2⟩ := List.getElem?_eq_some_iff.mp hsrc
        rw [← g2, List.set_getElem_self]
      rw [hset]
      exact ⟨I.see hx, fun k u _ hu => ⟨I.see hu, I.see hu⟩, [], by simpa using hok, by simpa using e⟩
  · obtain ⟨w', h1, D⟩ := copy_loop I (get_iff.mp hx) hrow (get_iff.mp hy) hsrc hcol hne
    refine ⟨w, w', e, h1, ?_⟩
    have hC := D.changed e I hok
    obtain ⟨o, ho, R⟩ := I.rep y vy (get_iff.mp hy)
    have hnd := nodup_asc (R.asc src (List.mem_of_getElem? hsrc))
    rw [modify_congr hrow (g := fun _ => src)] at hC
    · have : v.rows.modify r (fun _ => src) = v.rows.set r src := by
        apply List.ext_getElem?
        intro i
        rw [List.getElem?_modify, List.getElem?_set]
        by_cases hi : r = i
        · subst hi; rw [hrow]; simp [(List.getElem?_eq_some_iff.mp hrow).1]
        · simp [hi]
      rw [this] at hC
      exact hC
    · rw [List.take_length]
      have hlen : src.length = row.length := by
        have := congrArg List.length hcol
        simpa [columns] using this
      apply List.ext_getElem (by simp [puts, combined, hlen])
      intro i i1 i2
      have ir : i < row.length := by omega
      have hci : src[i].1 = row[i].1 := by
        have : (columns src)[i]? = (columns row)[i]? := by rw [hcol]
        simpa [columns, List.getElem?_eq_getElem i2, List.getElem?_eq_getElem ir] using this
      have : valueAt src row[i].1 = some src[i].2 := (valueAt_some hnd).2 (by rw [← hci]; exact List.getElem_mem i2)
      simp only [puts, combined, List.getElem_map, this]
      exact Prod.ext hci.symm rfl

/-! Concrete programs. -/

private def demoHeap : Heap Int := { js := [], as := [], junk := 9, dflt := 0, vini := 0 }

/-- `A` with one row and the columns 0 and 2, its copy `B`, and `C` with the columns 1 and 2. -/
private def demo : List (Op Int) :=
  [.rowWise 1 3 2 .rowWise [[0, 2]], .modify 0 0 0 (fun _ => 5), .modify 0 0 2 (fun _ => 7), .copy 0, .rowWise 1 3 2 .rowWise [[1, 2]],
    .modify 2 0 1 (fun _ => 8)]

private theorem demo_row1 (s : State Int) : BcrsWorld.apply (0 : Int) s (.rowWise 1 3 2 .rowWise [[0, 2]]) =
    s ++ [some ⟨1, 3, [[(0, 0), (2, 0)]], false, false⟩] := by
  have h1 : ([0, 2] : List Nat).toFinset.sort = [0, 2] := (List.toFinset_sort (· ≤ ·) (by decide)).2 (by decide)
  simp only [BcrsWorld.apply, List.map_cons, List.map_nil, h1]
  rfl
private theorem demo_row2 (s : State Int) : BcrsWorld.apply (0 : Int) s (.rowWise 1 3 2 .rowWise [[1, 2]]) =
    s ++ [some ⟨1, 3, [[(1, 0), (2, 0)]], false, false⟩] := by
  have h1 : ([1, 2] : List Nat).toFinset.sort = [1, 2] := (List.toFinset_sort (· ≤ ·) (by decide)).2 (by decide)
  simp only [BcrsWorld.apply, List.map_cons, List.map_nil, h1]
  rfl

private theorem demo_run : run (0 : Int) [] demo =
    [some ⟨1, 3, [[(0, 5), (2, 7)]], false, true⟩, some ⟨1, 3, [[(0, 5), (2, 7)]], false, true⟩, some ⟨1, 3, [[(1, 8), (2, 0)]], false, false⟩] := by
  unfold demo run
  rw [List.foldl_cons, demo_row1]
  simp only [List.foldl_cons]
  rw [demo_row2]
  rfl

private theorem demo_valid : AllValid (0 : Int) [] demo := by
  unfold demo
  refine ⟨⟨.inl rfl, rfl, .inr ⟨by omega, by decide⟩⟩, ?_⟩
  rw [demo_row1]
  refine ⟨⟨_, rfl, _, rfl, 0, by decide⟩, ⟨_, rfl, _, rfl, 0, by decide⟩, ⟨_, rfl⟩, ⟨.inl rfl, rfl, .inr ⟨by omega, by decide⟩⟩, ?_⟩
  rw [demo_row2]
  exact ⟨⟨_, rfl, _, rfl, 0, by decide⟩, trivial⟩

private theorem demo_get0 : (run (0 : Int) [] demo).get 0 = some ⟨1, 3, [[(0, 5), (2, 7)]], false, true⟩ := by rw [demo_run]; rfl
private theorem demo_get1 : (run (0 : Int) [] demo).get 1 = some ⟨1, 3, [[(0, 5), (2, 7)]], false, true⟩ := by rw [demo_run]; rfl
private theorem demo_get2 : (run (0 : Int) [] demo).get 2 = some ⟨1, 3, [[(1, 8), (2, 0)]], false, false⟩ := by rw [demo_run]; rfl

/-- `A[0] += B[0]` doubles the row; `B` and `C` stay. -/
example : ∃ w w', demo.foldlM step ⟨demoHeap, []⟩ = .ok w ∧ rowCombine (fun a b => a + b) 0 0 1 0 w = .ok w' ∧
    see w' 0 = .ok (1, 3, [[(0, 10), (2, 14)]]) ∧ see w' 1 = .ok (1, 3, [[(0, 5), (2, 7)]]) ∧ see w' 2 = .ok (1, 3, [[(1, 8), (2, 0)]]) := by
  obtain ⟨w, w', a, b, c⟩ := C102_combine demoHeap 0 rfl rfl demo demo_valid 0 0 1 0 _ _ demo_get0 demo_get1
    [(0, 5), (2, 7)] [(0, 5), (2, 7)] rfl rfl (by intro e he; exact ⟨e.2, he⟩) (fun a b => a + b)
  exact ⟨w, w', a, b, c.shown, (c.others 1 _ (by decide) demo_get1).2, (c.others 2 _ (by decide) demo_get2).2⟩

/-- `A[0] += C[0]` throws: column 1 is not stored in `A[0]`. -/
example : ∃ w, demo.foldlM step ⟨demoHeap, []⟩ = .ok w ∧ rowCombine (fun a b => a + b) 0 0 2 0 w = .throw .istlError :=
  C102_missing_throws demoHeap 0 rfl rfl demo demo_valid 0 0 2 0 _ _ demo_get0 demo_get2
    [(0, 5), (2, 7)] [(1, 8), (2, 0)] rfl rfl ⟨(1, 8), by simp, by rintro ⟨b, hb⟩; simp at hb⟩ (fun a b => a + b)

/-- `A[0] = B[0]` and `A[0] *= 3`. -/
example : (∃ w w', demo.foldlM step ⟨demoHeap, []⟩ = .ok w ∧ rowCopy 0 0 1 0 w = .ok w' ∧ see w' 0 = .ok (1, 3, [[(0, 5), (2, 7)]])) ∧
    ∃ w w', demo.foldlM step ⟨demoHeap, []⟩ = .ok w ∧ rowMap (· * 3) 0 0 w = .ok w' ∧ see w' 0 = .ok (1, 3, [[(0, 15), (2, 21)]]) := by
  constructor
  · obtain ⟨w, w', a, b, c⟩ := C102_copy demoHeap 0 rfl rfl demo demo_valid 0 0 1 0 _ _ demo_get0 demo_get1
      [(0, 5), (2, 7)] [(0, 5), (2, 7)] rfl rfl rfl
    exact ⟨w, w', a, b, c.shown⟩
  · obtain ⟨w, w', a, b, c⟩ := C102_map demoHeap 0 rfl rfl demo demo_valid 0 0 _ demo_get0 [(0, 5), (2, 7)] rfl (· * 3)
    exact ⟨w, w', a, b, c.shown⟩

/-- Why the columns must be the same: `A[0] = C[0]` writes the columns of `C` into the index array that `A` shares with its copy `B`: the
pattern of `B`, which the statement does not mention, changes. -/
theorem C102_shared_pattern_counterexample :
    (match demo.foldlM step ⟨demoHeap, []⟩ with
      | .ok w => (match rowCopy 0 0 2 0 w with
        | .ok w' => (match see w 1, see w' 1, see w' 0 with
          | .ok a, .ok b, .ok c => decide (a = (1, 3, [[(0, 5), (2, 7)]]) ∧ b = (1, 3, [[(1, 5), (2, 7)]]) ∧ c = (1, 3, [[(1, 8), (2, 0)]]))
          | _, _, _ => false)
        | _ => false)
      | _ => false) = true := by
  decide +kernel

end RowStmt
end Istl
