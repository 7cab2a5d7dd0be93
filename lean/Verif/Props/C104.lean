import Verif.Lemmas.RowChk

/-!
# C104: statements on rows and entries with `DUNE_ISTL_WITH_CHECKING`

With the checks compiled in, statements on rows and entries are defined for all row and column numbers: they do what they should or throw
and change nothing.
-/

namespace Istl
namespace RowStmt
open Bcrs BcrsWorld Iter
variable {B : Type}

/-- A program with arbitrary row and column numbers, every exception caught: it runs to the end without undefined behaviour, the exceptions
are the expected ones, and every variable shows what independent variables would have if statements that throw are left out. -/
theorem C104_program (h : Heap B) (z : B) (hd : h.dflt = z) (hv : h.vini = z) (prog : List (CStmt B)) (hok : AllAllowedChk z [] prog) :
    ∃ w, runChk ⟨h, []⟩ prog = .ok (w, outcomes z [] prog) ∧
      ∀ x v, (endState z [] prog).get x = some v → see w x = .ok (v.n, v.m, v.rows) := by
  obtain ⟨w, e, I⟩ := runChk_inv prog (inv_start h z hd hv) hok
  refine ⟨w, e, fun x v hx => ?_⟩
  rw [get_iff] at hx
  obtain ⟨o, ho, R⟩ := I.rep x v hx
  simp [BcrsWorld.see, obj_ok ho, R.view]

/-- A statement that throws leaves the memory and all objects exactly as they were. -/
theorem C104_throw_changes_nothing (h : Heap B) (z : B) (hd : h.dflt = z) (hv : h.vini = z) (prog : List (CStmt B))
    (hok : AllAllowedChk z [] prog) (st : CStmt B) (hst : AllowedChk (endState z [] prog) st) :
    ∃ w w', runChk ⟨h, []⟩ prog = .ok (w, outcomes z [] prog) ∧ execChk w st = .ok (w', outcome (endState z [] prog) st) ∧
      (outcome (endState z [] prog) st ≠ none → w' = w) := by
  obtain ⟨w, e, I⟩ := runChk_inv prog (inv_start h z hd hv) hok
  obtain ⟨w', e1, -, e2⟩ := execChk_inv I st hst
  exact ⟨w, w', e, e1, e2⟩

/-- Every single statement: done with its meaning, or one of the two exceptions. -/
theorem C104_statement (h : Heap B) (z : B) (hd : h.dflt = z) (hv : h.vini = z) (prog : List (CStmt B))
    (hok : AllAllowedChk z [] prog) (st : CStmt B) (hst : AllowedChk (endState z [] prog) st) :
    ∃ w w' e, runChk ⟨h, []⟩ prog = .ok (w, outcomes z [] prog) ∧ execChk w st = .ok (w', e) ∧
      (e = none ∨ e = some .bcrsMatrixError ∨ e = some .istlError) ∧
      ∀ x v, (if e = none then meaning z (endState z [] prog) st else endState z [] prog).get x = some v → see w' x = .ok (v.n, v.m, v.rows) := by
  obtain ⟨w, e, I⟩ := runChk_inv prog (inv_start h z hd hv) hok
  obtain ⟨w', e1, I', -⟩ := execChk_inv I st hst
  refine ⟨w, w', _, e, e1, ?_, fun x v hx => ?_⟩
  · cases st with
    | whole => exact .inl rfl
    | entry f x r c => simp only [outcome]; repeat' split
                       all_goals simp
    | map f x r => simp only [outcome]; split <;> simp
    | combine f x r y s => simp only [outcome]; repeat' split
                           all_goals simp
    | copy x r y s => simp only [outcome]; repeat' split
                      all_goals simp
  · have hS : (if outcome (endState z [] prog) st = none then meaning z (endState z [] prog) st else endState z [] prog) =
        applyChk z (endState z [] prog) st := by
      unfold applyChk
      cases outcome (endState z [] prog) st <;> simp
    rw [hS, get_iff] at hx
    obtain ⟨o, ho, R⟩ := I'.rep x v hx
    simp [BcrsWorld.see, obj_ok ho, R.view]

/-! A concrete program. -/

private def chkHeap : Heap Int := { js := [], as := [], junk := 9, dflt := 0, vini := 0 }

/-- `A` with the columns 0 and 2, `C` with the columns 0, 1 and 2; row 7 does not exist, entry (0,1) of `A` neither, the columns of `C` are not
in `A`, the sizes of the rows differ. -/
private def chkProg : List (CStmt Int) :=
  [.whole (.rowWise 1 3 2 .rowWise [[0, 2]]), .whole (.rowWise 1 3 3 .rowWise [[0, 1, 2]]), .map (fun _ => 5) 0 0, .map (fun _ => 3) 1 0,
    .map (fun _ => 4) 0 7, .entry (· + 1) 0 0 1, .entry (· + 1) 0 0 2, .combine (· + ·) 0 0 1 0, .copy 0 0 1 0, .combine (· + ·) 1 0 0 0,
    .combine (· + ·) 1 0 0 1]

private theorem chk_row1 (s : State Int) : applyChk (0 : Int) s (.whole (.rowWise 1 3 2 .rowWise [[0, 2]])) =
    s ++ [some ⟨1, 3, [[(0, 0), (2, 0)]], false, false⟩] := by
  have h1 : ([0, 2] : List Nat).toFinset.sort = [0, 2] := (List.toFinset_sort (· ≤ ·) (by decide)).2 (by decide)
  simp only [applyChk, outcome, meaning, BcrsWorld.apply, List.map_cons, List.map_nil, h1]
  rfl
private theorem chk_row2 (s : State Int) : applyChk (0 : Int) s (.whole (.rowWise 1 3 3 .rowWise [[0, 1, 2]])) =
    s ++ [some ⟨1, 3, [[(0, 0), (1, 0), (2, 0)]], false, false⟩] := by
  have h1 : ([0, 1, 2] : List Nat).toFinset.sort = [0, 1, 2] := (List.toFinset_sort (· ≤ ·) (by decide)).2 (by decide)
  simp only [applyChk, outcome, meaning, BcrsWorld.apply, List.map_cons, List.map_nil, h1]
  rfl

private theorem chk_ok : AllAllowedChk (0 : Int) [] chkProg := by
  unfold chkProg
  refine ⟨⟨.inl rfl, rfl, .inr ⟨by omega, by decide⟩⟩, ?_⟩
  rw [chk_row1]
  refine ⟨⟨.inl rfl, rfl, .inr ⟨by omega, by decide⟩⟩, ?_⟩
  rw [chk_row2]
  refine ⟨⟨_, rfl⟩, ⟨_, rfl⟩, ⟨_, rfl⟩, ⟨_, rfl⟩, ⟨_, rfl⟩, ⟨⟨_, rfl⟩, ⟨_, rfl⟩⟩, ⟨⟨_, rfl⟩, ⟨_, rfl⟩, ?_⟩, ⟨⟨_, rfl⟩, ⟨_, rfl⟩⟩,
    ⟨⟨_, rfl⟩, ⟨_, rfl⟩⟩, trivial⟩
  intro row src h1 h2 h3
  have e1 : row = [(0, 5), (2, 6)] := (Option.some.inj h1).symm
  have e2 : src = [(0, 3), (1, 3), (2, 3)] := (Option.some.inj h2).symm
  rw [e1, e2] at h3
  simp at h3

/-- The row that is missing gives a `BCRSMatrixError`, the other wrong statements an `ISTLError`, and the rest has its effect. -/
example : ∃ w, runChk ⟨chkHeap, []⟩ chkProg = .ok (w, [none, none, none, none, some .bcrsMatrixError, some .istlError, none, some .istlError,
      some .istlError, none, some .bcrsMatrixError]) ∧
    see w 0 = .ok (1, 3, [[(0, 5), (2, 6)]]) ∧ see w 1 = .ok (1, 3, [[(0, 8), (1, 3), (2, 9)]]) := by
  obtain ⟨w, e, h⟩ := C104_program chkHeap 0 rfl rfl chkProg chk_ok
  have h1 : outcomes (0 : Int) [] chkProg = [none, none, none, none, some .bcrsMatrixError, some .istlError, none, some .istlError,
      some .istlError, none, some .bcrsMatrixError] := by
    unfold chkProg
    rw [outcomes, chk_row1, outcomes, chk_row2]
    rfl
  have h2 : endState (0 : Int) [] chkProg = [some ⟨1, 3, [[(0, 5), (2, 6)]], false, false⟩,
      some ⟨1, 3, [[(0, 8), (1, 3), (2, 9)]], false, false⟩] := by
    unfold chkProg endState
    rw [List.foldl_cons, chk_row1, List.foldl_cons, chk_row2]
    rfl
  rw [h1] at e
  rw [h2] at h
  exact ⟨w, e, h 0 _ rfl, h 1 _ rfl⟩

example : ∃ w w', runChk ⟨chkHeap, []⟩ chkProg = .ok (w, outcomes 0 [] chkProg) ∧
    execChk w (.map (fun _ => 1) 0 100) = .ok (w', outcome (endState 0 [] chkProg) (.map (fun _ => 1) 0 100)) := by
  obtain ⟨w, w', a, b, -⟩ := C104_throw_changes_nothing chkHeap 0 rfl rfl chkProg chk_ok (.map (fun _ => 1) 0 100) (by
    unfold chkProg endState
    rw [List.foldl_cons, chk_row1, List.foldl_cons, chk_row2]
    exact ⟨_, rfl⟩)
  exact ⟨w, w', a, b⟩

/-- Without the checks the same row number is undefined behaviour. -/
theorem C104_unchecked_counterexample :
    (match ([.rowWise 1 3 2 .rowWise [[0, 2]]] : List (Op Int)).foldlM step ⟨chkHeap, []⟩ with
      | .ok w => (match rowMap (fun _ => 4) 0 7 w, chkRow w 0 7 with
        | .ub, .throw e => decide (e = .bcrsMatrixError)
        | _, _ => false)
      | _ => false) = true := by
  decide +kernel

end RowStmt
end Istl
