import Verif.Lemmas.RowProg
import Verif.Props.C102

/-!
# C103: programs with statements on rows, and functions of rows

Statements on whole matrices, on entries and on rows in any order, with caught exceptions; norms, scalar products and lookups of rows
after any such program.
-/

namespace Istl
namespace RowStmt
open Bcrs BcrsWorld Iter
variable {B : Type}

/-- Every program runs and every variable shows the value that independent variables would have. -/
theorem C103_program (h : Heap B) (z : B) (hd : h.dflt = z) (hv : h.vini = z) (prog : List (Stmt B)) (hok : AllAllowed z [] prog) :
    ∃ w, prog.foldlM exec ⟨h, []⟩ = .ok w ∧ ∀ x v, (runStmts z [] prog).get x = some v → see w x = .ok (v.n, v.m, v.rows) := by
  obtain ⟨w, e, I⟩ := prog_inv prog (inv_start h z hd hv) hok
  exact ⟨w, e, fun x v hx => I.see hx⟩

/-- `A[r] += B[s]` throws after a program exactly if a column is missing; caught, the columns before it have been combined. -/
theorem C103_throws (h : Heap B) (z : B) (hd : h.dflt = z) (hv : h.vini = z) (prog : List (Stmt B)) (hok : AllAllowed z [] prog)
    (x r y s : Nat) (row src : Row B) (hrow : rowOf (runStmts z [] prog) x r = some row) (hsrc : rowOf (runStmts z [] prog) y s = some src)
    (f : B → B → B) :
    ∃ w, prog.foldlM exec ⟨h, []⟩ = .ok w ∧ (rowCombine f x r y s w = .throw .istlError ↔ ∃ c ∈ columns src, c ∉ columns row) := by
  classical
  obtain ⟨w, e, I⟩ := prog_inv prog (inv_start h z hd hv) hok
  refine ⟨w, e, ?_⟩
  constructor
  · intro ht
    by_contra hc
    push Not at hc
    obtain ⟨w', a, -, -⟩ := combine_inv I hrow hsrc hc f
    rw [a] at ht
    exact absurd ht (by simp)
  · rintro ⟨c, hc, hcn⟩
    obtain ⟨v, hx, hr⟩ := rowOf_iff.1 hrow
    obtain ⟨vy, hy, hs⟩ := rowOf_iff.1 hsrc
    obtain ⟨o, ws, win, ho, hws, hwin, href⟩ := rowRef_ok I hx hr
    obtain ⟨o', ws', win', ho', hws', hwin', href'⟩ := rowRef_ok I hy hs
    obtain ⟨hsz, -, -, -⟩ := read_entry I hy ho' hws' hwin' hs
    have hex : ∃ k, ∃ h : k < src.length, ¬row.Has src[k].1 := by
      obtain ⟨p, hp, rfl⟩ := List.mem_map.1 hc
      obtain ⟨k, hk, rfl⟩ := List.mem_iff_getElem.mp hp
      exact ⟨k, hk, fun h => hcn (has_iff.1 h)⟩
    obtain ⟨hk, hn⟩ := Nat.find_spec hex
    obtain ⟨w', h1, -, h2⟩ := combine_upto I hx hr hy hs f ho hws hwin ho' hws' hwin' (Nat.find hex) hk (by
      intro q hq
      have := Nat.find_min hex hq
      by_contra hc
      exact this ⟨by omega, hc⟩) hn
    unfold rowCombine
    rw [href, Res.ok_bind, href', Res.ok_bind, hsz]
    exact forRangeM_throw h1 h2 _ hk

/-- `A[r][c]` is the stored value, or an `ISTLError`. -/
theorem C103_lookup (h : Heap B) (z : B) (hd : h.dflt = z) (hv : h.vini = z) (prog : List (Stmt B)) (hok : AllAllowed z [] prog)
    (x r c : Nat) (row : Row B) (hrow : rowOf (runStmts z [] prog) x r = some row) :
    ∃ w, prog.foldlM exec ⟨h, []⟩ = .ok w ∧
      rowGet x r c w = match valueAt row c with | some b => .ok b | none => .throw .istlError := by
  obtain ⟨w, e, I⟩ := prog_inv prog (inv_start h z hd hv) hok
  refine ⟨w, e, ?_⟩
  obtain ⟨v, hx, hr⟩ := rowOf_iff.1 hrow
  obtain ⟨o, ws, win, ho, hws, hwin, href⟩ := rowRef_ok I hx hr
  obtain ⟨t1, t2, t3, t4⟩ := read_entry I hx ho hws hwin hr
  unfold rowGet
  rw [href, Res.ok_bind]
  cases hval : valueAt row c with
  | none =>
    rw [(access_eq t1 t2 t3 c).2 (fun hh => valueAt_none.1 hval (has_iff.1 hh))]
    rfl
  | some b =>
    obtain ⟨q, hq, hqe⟩ := List.mem_iff_getElem.mp ((valueAt_some (nodup_asc t3)).1 hval)
    have hq' : row[q]? = some (c, b) := by rw [List.getElem?_eq_getElem hq, hqe]
    rw [(access_eq t1 t2 t3 c).1 q b hq', Res.ok_bind, (t4 q c b hq').2]

/-- Norms, dimension: the loop visits every stored value once, in order. -/
theorem C103_fold {F : Type} (h : Heap B) (z : B) (hd : h.dflt = z) (hv : h.vini = z) (prog : List (Stmt B)) (hok : AllAllowed z [] prog)
    (x r : Nat) (row : Row B) (hrow : rowOf (runStmts z [] prog) x r = some row) (g : F → B → F) (s0 : F) :
    ∃ w, prog.foldlM exec ⟨h, []⟩ = .ok w ∧ rowFold g s0 x r w = .ok ((row.map Prod.snd).foldl g s0) := by
  obtain ⟨w, e, I⟩ := prog_inv prog (inv_start h z hd hv) hok
  refine ⟨w, e, ?_⟩
  obtain ⟨v, hx, hr⟩ := rowOf_iff.1 hrow
  obtain ⟨o, ws, win, ho, hws, hwin, href⟩ := rowRef_ok I hx hr
  obtain ⟨t1, t2, t3, t4⟩ := read_entry I hx ho hws hwin hr
  unfold rowFold
  rw [href, Res.ok_bind, t1]
  obtain ⟨s', h1, h2⟩ := forRangeM_inv row.length (fun i s => do
    let b ← (cell win i).deref w.h
    .ok (g s b)) (fun k s => s = ((row.take k).map Prod.snd).foldl g s0) s0 (by simp) (by
      intro k s hk hs
      have hs' : row[k]? = some (row[k].1, row[k].2) := List.getElem?_eq_getElem hk
      refine ⟨g s row[k].2, by rw [(t4 k _ _ hs').2]; rfl, ?_⟩
      have ht : row.take (k + 1) = row.take k ++ [row[k]] := by
        rw [List.take_add_one, List.getElem?_eq_getElem hk]; rfl
      rw [ht, List.map_append, List.foldl_append, hs]
      rfl)
  rw [h1, h2, List.take_length]

/-- `A[r] * B[s]`: the sum over the columns of `A[r]`. -/
theorem C103_dot {F : Type} [AddMonoid F] (h : Heap B) (z : B) (hd : h.dflt = z) (hv : h.vini = z) (prog : List (Stmt B))
    (hok : AllAllowed z [] prog) (x r y s : Nat) (row src : Row B) (hrow : rowOf (runStmts z [] prog) x r = some row)
    (hsrc : rowOf (runStmts z [] prog) y s = some src) (mul : B → B → F) :
    ∃ w, prog.foldlM exec ⟨h, []⟩ = .ok w ∧
      ((∀ c ∈ columns row, c ∈ columns src) → rowDot mul x r y s w = .ok (dotOf mul row src)) ∧
      ((∃ c ∈ columns row, c ∉ columns src) → rowDot mul x r y s w = .throw .istlError) := by
  classical
  obtain ⟨w, e, I⟩ := prog_inv prog (inv_start h z hd hv) hok
  refine ⟨w, e, ?_⟩
  obtain ⟨v, hx, hr⟩ := rowOf_iff.1 hrow
  obtain ⟨vy, hy, hs⟩ := rowOf_iff.1 hsrc
  obtain ⟨o, ws, win, ho, hws, hwin, href⟩ := rowRef_ok I hx hr
  obtain ⟨o', ws', win', ho', hws', hwin', href'⟩ := rowRef_ok I hy hs
  obtain ⟨t1, t2, t3, t4⟩ := read_entry I hx ho hws hwin hr
  obtain ⟨s1, s2, s3, s4⟩ := read_entry I hy ho' hws' hwin' hs
  have key : ∀ n (hn : n ≤ row.length), (∀ k (hk : k < n), (row[k]'(by omega)).1 ∈ columns src) →
      ∃ t, forRangeM n (fun i (sum : F) => do
        let a ← (cell win i).deref w.h
        let c ← (cell win i).index w.h
        let it ← access w.h win' c
        let b ← it.deref w.h
        .ok (sum + mul a b)) 0 = .ok t ∧ t = dotOf mul (row.take n) src := by
    intro n hn hsub
    refine forRangeM_inv n _ (fun k t => t = dotOf mul (row.take k) src) 0 (by simp [dotOf, columns]) ?_
    intro k t hk ht
    have hkl : k < row.length := by omega
    have hs' : row[k]? = some (row[k].1, row[k].2) := List.getElem?_eq_getElem hkl
    obtain ⟨p, hp, hpe⟩ := List.mem_map.1 (hsub k hk)
    obtain ⟨q, hq, hqe⟩ := List.mem_iff_getElem.mp hp
    have hq' : src[q]? = some (row[k].1, p.2) := by rw [List.getElem?_eq_getElem hq, hqe, ← hpe]
    refine ⟨t + mul row[k].2 p.2, ?_, ?_⟩
    · rw [(t4 k _ _ hs').2, Res.ok_bind, (t4 k _ _ hs').1, Res.ok_bind, (access_eq s1 s2 s3 _).1 q p.2 hq', Res.ok_bind, (s4 q _ _ hq').2, Res.ok_bind]
    · have hnd := nodup_asc t3
      have hval : ∀ m, ∀ c ∈ columns (row.take m), valueAt (row.take m) c = valueAt row c := by
        intro m c hc
        obtain ⟨u, hu, rfl⟩ := List.mem_map.1 hc
        rw [(valueAt_some (take_nodup hnd)).2 hu, (valueAt_some hnd).2 (List.mem_of_mem_take hu)]
      have htk : row.take (k + 1) = row.take k ++ [row[k]] := by
        rw [List.take_add_one, List.getElem?_eq_getElem hkl]; rfl
      have hcols : columns (row.take (k + 1)) = columns (row.take k) ++ [row[k].1] := by
        unfold columns; rw [htk, List.map_append]; rfl
      have hv1 := hval (k + 1) row[k].1 (by rw [hcols]; simp)
      have h1 : valueAt row row[k].1 = some row[k].2 := (valueAt_some hnd).2 (List.getElem_mem hkl)
      have h2 : valueAt src row[k].1 = some p.2 := (valueAt_some (nodup_asc s3)).2 (List.mem_of_getElem? hq')
      rw [ht]
      unfold dotOf
      rw [hcols, List.map_append, List.sum_append]
      refine congrArg₂ (· + ·) (congrArg List.sum (List.map_congr_left fun c hc => ?_)) ?_
      · rw [hval (k + 1) c (by rw [hcols]; exact List.mem_append_left _ hc), hval k c hc]
      · simp [hv1, h1, h2]
  constructor
  · intro hsub
    obtain ⟨t, h1, h2⟩ := key row.length (le_refl _) fun k hk => hsub _ (List.mem_map.2 ⟨_, List.getElem_mem hk, rfl⟩)
    unfold rowDot
    rw [href, Res.ok_bind, href', Res.ok_bind, t1, h1, h2, List.take_length]
  · rintro ⟨c, hc, hcn⟩
    have hex : ∃ k, ∃ h : k < row.length, row[k].1 ∉ columns src := by
      obtain ⟨p, hp, rfl⟩ := List.mem_map.1 hc
      obtain ⟨k, hk, rfl⟩ := List.mem_iff_getElem.mp hp
      exact ⟨k, hk, hcn⟩
    obtain ⟨hk, hn⟩ := Nat.find_spec hex
    obtain ⟨t, h1, -⟩ := key (Nat.find hex) (Nat.le_of_lt hk) (by
      intro q hq
      have := Nat.find_min hex hq
      by_contra hc
      exact this ⟨by omega, hc⟩)
    have hs' : row[Nat.find hex]? = some ((row[Nat.find hex]'hk).1, (row[Nat.find hex]'hk).2) := List.getElem?_eq_getElem hk
    unfold rowDot
    rw [href, Res.ok_bind, href', Res.ok_bind, t1]
    refine forRangeM_throw h1 ?_ _ hk
    rw [(t4 _ _ _ hs').2, Res.ok_bind, (t4 _ _ _ hs').1, Res.ok_bind]
    change (access w.h win' (row[Nat.find hex]'hk).1 >>= _) = _
    rw [(access_eq s1 s2 s3 _).2 (fun hh => hn (has_iff.1 hh))]
    rfl

/-! A concrete program. -/

private def progHeap : Heap Int := { js := [], as := [], junk := 9, dflt := 0, vini := 0 }

/-- `A` with the columns 0 and 2, `C` with the columns 0, 1 and 2, a copy `D` of `A`; then `A[0] = 5`, `C[0] = 3`,
`try { A[0] += C[0]; } catch …`, `C[0] += A[0]`, `D[0] = A[0]`, `A[0] *= 2`. -/
private def prog : List (Stmt Int) :=
  [.whole (.rowWise 1 3 2 .rowWise [[0, 2]]), .whole (.rowWise 1 3 3 .rowWise [[0, 1, 2]]), .whole (.copy 0), .map (fun _ => 5) 0 0,
    .map (fun _ => 3) 1 0, .tryCombine (· + ·) 0 0 1 0, .combine (· + ·) 1 0 0 0, .copy 2 0 0 0, .map (· * 2) 0 0]

private theorem prog_row1 (s : State Int) : applyStmt (0 : Int) s (.whole (.rowWise 1 3 2 .rowWise [[0, 2]])) =
    s ++ [some ⟨1, 3, [[(0, 0), (2, 0)]], false, false⟩] := by
  have h1 : ([0, 2] : List Nat).toFinset.sort = [0, 2] := (List.toFinset_sort (· ≤ ·) (by decide)).2 (by decide)
  simp only [applyStmt, BcrsWorld.apply, List.map_cons, List.map_nil, h1]
  rfl
private theorem prog_row2 (s : State Int) : applyStmt (0 : Int) s (.whole (.rowWise 1 3 3 .rowWise [[0, 1, 2]])) =
    s ++ [some ⟨1, 3, [[(0, 0), (1, 0), (2, 0)]], false, false⟩] := by
  have h1 : ([0, 1, 2] : List Nat).toFinset.sort = [0, 1, 2] := (List.toFinset_sort (· ≤ ·) (by decide)).2 (by decide)
  simp only [applyStmt, BcrsWorld.apply, List.map_cons, List.map_nil, h1]
  rfl

private theorem prog_ok : AllAllowed (0 : Int) [] prog := by
  unfold prog
  refine ⟨⟨.inl rfl, rfl, .inr ⟨by omega, by decide⟩⟩, ?_⟩
  rw [prog_row1]
  refine ⟨⟨.inl rfl, rfl, .inr ⟨by omega, by decide⟩⟩, ?_⟩
  rw [prog_row2]
  exact ⟨⟨_, rfl⟩, ⟨_, rfl⟩, ⟨_, rfl⟩, ⟨_, _, rfl, rfl⟩, ⟨_, _, rfl, rfl, by decide⟩, ⟨_, _, rfl, rfl, rfl⟩, ⟨_, rfl⟩, trivial⟩

private theorem prog_run : runStmts (0 : Int) [] prog =
    [some ⟨1, 3, [[(0, 16), (2, 10)]], false, true⟩, some ⟨1, 3, [[(0, 11), (1, 3), (2, 8)]], false, false⟩,
      some ⟨1, 3, [[(0, 8), (2, 5)]], false, true⟩] := by
  unfold prog runStmts
  rw [List.foldl_cons, prog_row1, List.foldl_cons, prog_row2]
  rfl

/-- The caught exception: column 0 of `C` has been added to `A`, column 2 not. -/
example : ∃ w, prog.foldlM exec ⟨progHeap, []⟩ = .ok w ∧ see w 0 = .ok (1, 3, [[(0, 16), (2, 10)]]) ∧
    see w 1 = .ok (1, 3, [[(0, 11), (1, 3), (2, 8)]]) ∧ see w 2 = .ok (1, 3, [[(0, 8), (2, 5)]]) := by
  obtain ⟨w, e, h⟩ := C103_program progHeap 0 rfl rfl prog prog_ok
  rw [prog_run] at h
  exact ⟨w, e, h 0 _ rfl, h 1 _ rfl, h 2 _ rfl⟩

/-- `A[0] * C[0] = 16*11 + 10*8`, but `C[0] * A[0]` throws. -/
example : ∃ w, prog.foldlM exec ⟨progHeap, []⟩ = .ok w ∧ rowDot (· * ·) 0 0 1 0 w = .ok (256 : Int) := by
  obtain ⟨w, e, h, -⟩ := C103_dot (F := Int) progHeap 0 rfl rfl prog prog_ok 0 0 1 0 [(0, 16), (2, 10)] [(0, 11), (1, 3), (2, 8)]
    (by rw [prog_run]; rfl) (by rw [prog_run]; rfl) (· * ·)
  exact ⟨w, e, h (by decide)⟩
example : ∃ w, prog.foldlM exec ⟨progHeap, []⟩ = .ok w ∧ rowDot (F := Int) (· * ·) 1 0 0 0 w = .throw .istlError := by
  obtain ⟨w, e, -, h⟩ := C103_dot (F := Int) progHeap 0 rfl rfl prog prog_ok 1 0 0 0 [(0, 11), (1, 3), (2, 8)] [(0, 16), (2, 10)]
    (by rw [prog_run]; rfl) (by rw [prog_run]; rfl) (· * ·)
  exact ⟨w, e, h (by decide)⟩

/-- `A[0][2]`, `A[0][1]`, `A[0].one_norm()`. -/
example : (∃ w, prog.foldlM exec ⟨progHeap, []⟩ = .ok w ∧ rowGet 0 0 2 w = .ok 10) ∧
    (∃ w, prog.foldlM exec ⟨progHeap, []⟩ = .ok w ∧ rowGet 0 0 1 w = .throw .istlError) ∧
    ∃ w, prog.foldlM exec ⟨progHeap, []⟩ = .ok w ∧ rowFold (fun s b => s + |b|) 0 0 0 w = .ok 26 :=
  ⟨C103_lookup progHeap 0 rfl rfl prog prog_ok 0 0 2 [(0, 16), (2, 10)] (by rw [prog_run]; rfl),
    C103_lookup progHeap 0 rfl rfl prog prog_ok 0 0 1 [(0, 16), (2, 10)] (by rw [prog_run]; rfl),
    C103_fold progHeap 0 rfl rfl prog prog_ok 0 0 [(0, 16), (2, 10)] (by rw [prog_run]; rfl) (fun s b => s + |b|) 0⟩

/-- `A[0] += C[0]` at the end throws. -/
example : ∃ w, prog.foldlM exec ⟨progHeap, []⟩ = .ok w ∧ rowCombine (· + ·) 0 0 1 0 w = .throw .istlError := by
  obtain ⟨w, e, h⟩ := C103_throws progHeap 0 rfl rfl prog prog_ok 0 0 1 0 [(0, 16), (2, 10)] [(0, 11), (1, 3), (2, 8)]
    (by rw [prog_run]; rfl) (by rw [prog_run]; rfl) (· + ·)
  exact ⟨w, e, h.2 ⟨1, by decide, by decide⟩⟩

end RowStmt
end Istl
