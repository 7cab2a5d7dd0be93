import Verif.Lemmas.BuildOrder2

/-!
# C07 Build calls out of order are rejected without effect
-/

namespace Istl
namespace Bcrs
variable {B : Type}

/-- **C07.** A construction call that is not permitted in the current build mode and stage throws (`BCRSMatrixError` or
`InvalidStateException`) and leaves the matrix, its memory and the program's iterator exactly as they were. -/
theorem C07_out_of_order_rejected (c : Call B) (x : Site B) (hw : c.Writable x) (h : ¬ Permitted c x.s.o.mode x.s.o.ready) :
    ∃ e, (e = .bcrsMatrixError ∨ e = .invalidState) ∧ c.exec x = .throw e x :=
  rejected c x hw h

/-- **C07.** Once a matrix is built every construction call except `setSize` (and the unchecked `setIndices`) is refused, without
effect on anything. -/
theorem C07_built_is_frozen (c : Call B) (x : Site B) (hb : x.s.o.ready = .built) (hw : c.Writable x)
    (hs : c.isSetSize = false) (hu : c.isUnchecked = false) :
    ∃ e, (e = .bcrsMatrixError ∨ e = .invalidState) ∧ c.exec x = .throw e x := by
  refine rejected c x hw ?_
  cases c <;> simp [Permitted, hb, Call.isSetSize, Call.isUnchecked] at *

/-- **C07.** In every history of calls starting with the default constructor: a matrix that is in the stage `built` got there by
one of the three documented complete sequences of accepted calls since the last `setSize`. -/
theorem C07_built_only_by_complete_sequence (h : Heap B) (x : Site B) (t : List (Call B × Bool)) (r : Runs h x t)
    (hb : x.s.o.ready = .built) : Complete x.s.o.n (sinceSetSize t) :=
  (runs_inv r).blt hb

private theorem site_ext {x y : Site B} (h1 : y.s = x.s) (h2 : y.it = x.it) : y = x := by
  obtain ⟨s, i⟩ := x
  obtain ⟨s', i'⟩ := y
  cases h1; cases h2; rfl

/-- **C07.** In every history, a call among the following that throws, for whatever reason (also because a column or the number
of entries is out of range), leaves everything as it was. -/
theorem C07_failed_call_has_no_effect (h : Heap B) (x y : Site B) (t : List (Call B × Bool)) (r : Runs h x t) (c : Call B)
    (hc : match c with
      | .setBuildMode _ | .setParameters .. | .setrowsize .. | .incrementrowsize .. | .endrowsizes | .addindex .. | .endindices
      | .createbegin => True
      | _ => False)
    (e : Exc) (he : c.exec x = .throw e y) : y = x := by
  have I := runs_inv r
  have key : ∀ {it : Option CIter} (f : BC B Unit), onMatrix f x.it x = .throw e y →
      (∀ s', f x.s = .throw e s' → s' = x.s) → y = x := by
    intro it f hf hF
    obtain ⟨q1, q2⟩ := onMatrix_throw hf
    exact site_ext (hF _ q1) q2
  by_cases hp : Permitted c x.s.o.mode x.s.o.ready
  swap
  · have hw : c.Writable x := by rintro cols rfl; exact hc.elim
    obtain ⟨e', -, he'⟩ := rejected c x hw hp
    rw [he] at he'
    simp at he'
    exact he'.2
  cases c with
  | setBuildMode bm =>
    refine key (it := none) _ he ?_
    intro s' q
    unfold Bcrs.setBuildMode at q
    split at q
    · simp at q
    · split at q
      · simp at q
      · simp at q; exact q.2.symm
  | setParameters avg cbs =>
    refine key (it := none) _ he ?_
    intro s' q
    unfold setImplicitBuildModeParameters at q
    split at q
    · simp at q; exact q.2.symm
    · split at q
      · simp at q; exact q.2.symm
      · simp at q
  | setrowsize i sz =>
    refine key (it := none) _ he ?_
    intro s' q
    unfold Bcrs.setrowsize at q
    rcases bind_throw_inv q with q | ⟨t, s1, q1, q⟩
    · simp at q
    obtain ⟨rfl, rfl⟩ := get_inv q1
    rw [if_neg (by simp [hp.1]), if_neg (by simp [hp.2])] at q
    rcases bind_throw_inv q with q | ⟨w, s1, q1, q⟩
    · exact (row_throw q).elim
    · unfold setRow at q
      split at q
      · simp at q
      · split at q <;> simp at q
  | incrementrowsize i sz =>
    refine key (it := none) _ he ?_
    intro s' q
    unfold Bcrs.incrementrowsize at q
    rcases bind_throw_inv q with q | ⟨t, s1, q1, q⟩
    · simp at q
    obtain ⟨rfl, rfl⟩ := get_inv q1
    rw [if_neg (by simp [hp.1]), if_neg (by simp [hp.2])] at q
    rcases bind_throw_inv q with q | ⟨w, s1, q1, q⟩
    · exact (row_throw q).elim
    · unfold setRow at q
      split at q
      · simp at q
      · split at q <;> simp at q
  | endrowsizes =>
    refine key (it := none) _ he ?_
    intro s' q
    have ha := I.a0 (.inl ⟨hp.2, by rw [hp.1]; simp⟩)
    rcases endrowsizes_ends ha (.inr ⟨_, q⟩) with ⟨p, _⟩ | ⟨_, p⟩
    · rw [q] at p; simp at p
    · exact p
  | addindex i j =>
    exact key (it := none) _ he (fun s' q => addindex_throw q)
  | endindices =>
    refine key (it := none) _ he ?_
    intro s' q
    have ha := I.a0 (.inr hp.2)
    rcases endindices_ends ha (.inr ⟨_, q⟩) with ⟨p, _⟩ | ⟨_, p⟩
    · rw [q] at p; simp at p
    · exact p
  | createbegin =>
    obtain ⟨q1, q2⟩ := onIter_throw he
    rcases createbegin_ends (.inr ⟨_, q1⟩) with ⟨_, p, _⟩ | ⟨_, p⟩
    · rw [q1] at p; simp at p
    · exact site_ext p q2
  | setSize r c k => exact hc.elim
  | setIndices i l => exact hc.elim
  | setIndicesNoSort i l => exact hc.elim
  | nextRow l => exact hc.elim
  | entry i j f => exact hc.elim
  | compress => exact hc.elim

/-- **C07.** A matrix under construction cannot be copied, and nothing can be assigned from or to it: the copy constructor throws,
and an assignment throws leaving target and source as they were. -/
theorem C07_copy_of_unfinished_rejected (s : St B) (src : Obj B) (nnz : Nat)
    (h : src.ready = .building ∨ src.ready = .rowSizesBuilt) :
    (∃ s', copyCtor src nnz s = .throw .invalidState s') ∧ assign src nnz s = .throw .invalidState s := by
  have hn : ¬ (src.ready = .notAllocated ∨ src.ready = .built) := by rcases h with h | h <;> simp [h]
  refine ⟨⟨{ s with o := empty src.mode src.avg src.cbs }, ?_⟩, ?_⟩
  · simp only [copyCtor, Cmd.bind_def, setO, Cmd.modify_apply]
    rw [if_pos hn]; rfl
  · simp only [assign, Cmd.bind_def, Cmd.get_apply]
    rw [if_pos (fun q => hn q.2)]; rfl

/-- see `C07_copy_of_unfinished_rejected`: the target is under construction. -/
theorem C07_assign_to_unfinished_rejected (s : St B) (src : Obj B) (nnz : Nat)
    (h : s.o.ready = .building ∨ s.o.ready = .rowSizesBuilt) : assign src nnz s = .throw .invalidState s := by
  have hn : ¬ (s.o.ready = .notAllocated ∨ s.o.ready = .built) := by rcases h with h | h <;> simp [h]
  simp only [assign, Cmd.bind_def, Cmd.get_apply]
  rw [if_pos (fun q => hn q.1)]; rfl

/-! ### Non-vacuity and limits -/

private def heap0 : Heap Int := { js := [], as := [], junk := 9, dflt := 0, vini := 0 }

/-- Run calls, catching exceptions; the list says which returned normally. -/
private def play : List (Call Int) → Site Int → Option (Site Int × List Bool)
  | [], x => some (x, [])
  | c :: cs, x =>
    match c.exec x with
    | .ok _ y => (play cs y).map fun r => (r.1, true :: r.2)
    | .throw _ y => (play cs y).map fun r => (r.1, false :: r.2)
    | .ub => none

private def site0 : Site Int := ⟨⟨heap0, empty⟩, none⟩

/-- stage, accepted calls and what is stored after a program -/
private def summary (cs : List (Call Int)) : Option (Stage × List Bool × List (Row Int)) :=
  match play cs site0 with
  | some (x, l) => match view x.s with
    | .ok (_, _, rs) => some (x.s.o.ready, l, rs)
    | _ => some (x.s.o.ready, l, [])
  | none => none

set_option synthInstance.maxSize 1000 in
/-- A random-mode history with four misplaced calls, all refused; the matrix is built in the end. -/
example : summary [.setBuildMode .random, .setSize 2 2 0, .addindex 0 0, .setrowsize 0 1, .setrowsize 1 1, .endindices,
      .endrowsizes, .setrowsize 0 2, .addindex 0 1, .addindex 1 0, .endindices, .addindex 0 0] =
    some (.built, [true, true, false, true, true, false, true, false, true, true, true, false], [[(1, 0)], [(0, 0)]]) := by
  decide +kernel

set_option synthInstance.maxSize 1000 in
/-- A row-wise history: the second `createbegin` restarts, the third and the extra `++` are refused. -/
example : summary [.setSize 2 2 4, .createbegin, .nextRow [0], .createbegin, .nextRow [0, 1], .nextRow [1], .createbegin,
      .nextRow [0]] =
    some (.built, [true, true, true, true, true, true, false, false], [[(0, 0), (1, 0)], [(1, 0)]]) := by decide +kernel

set_option synthInstance.maxSize 1000 in
/-- An implicit-mode history. -/
example : summary [.setBuildMode .implicit, .setParameters 2 1, .setSize 2 2 0, .createbegin, .entry 0 1 (fun _ => 5),
      .entry 2 0 (fun _ => 1), .compress, .entry 0 0 (fun _ => 1), .compress] =
    some (.built, [true, true, true, false, true, false, true, false, false], [[(0 + 1, 5)], []]) := by decide +kernel

/-- The histories above are histories in the sense of `Runs`. -/
example : ∃ x t, Runs heap0 x t ∧ x.s.o.ready = .built := by
  refine ⟨_, _, .ok .createbegin (.ok (.setSize 0 0 0) .start rfl) rfl, rfl⟩

set_option synthInstance.maxSize 1000 in
/-- `setIndices` is never refused: on a built matrix it changes the columns of a row without an exception. -/
theorem C07_setIndices_counterexample :
    summary [.setBuildMode .random, .setSize 1 2 0, .setrowsize 0 1, .endrowsizes, .addindex 0 0, .endindices,
      .setIndices 0 [1]] =
    some (.built, [true, true, true, true, true, true, true], [[(1, 0)]]) := by decide +kernel

/-- `setSize` of an implicit-mode matrix with a number of nonzeros throws only after it has thrown away the old matrix. -/
theorem C07_setSize_counterexample :
    (match play [.setBuildMode .implicit, .setParameters 1 1, .setSize 1 1 0, .entry 0 0 (fun _ => 5), .compress, .setSize 1 1 3]
        site0 with
      | some (x, l) => (x.s.o.ready, l, x.s.o.n, x.s.o.rows)
      | none => (.building, [], 0, none)) =
    (.notAllocated, [true, true, true, true, true, false], 1, none) := by decide +kernel

/-- `entry` is protected only in builds with DUNE_ISTL_WITH_CHECKING: without it, the call on a built random-mode matrix
is accepted. -/
theorem C07_unchecked_entry_counterexample :
    (match play [.setSize 1 1 1, .createbegin, .nextRow [0]] site0 with
      | some (x, _) => (entry 0 0 (fun _ => 7) x.s).isOk
      | none => false) = true := by decide +kernel

end Bcrs
end Istl
