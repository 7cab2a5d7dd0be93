import Verif.Lemmas.BcrsRowWise

/-! # C04 — row-wise build mode -/

namespace Istl
open Bcrs
variable {B : Type}

theorem rowWise_start (h : Heap B) (o : Obj B) (n m nnz : Nat) (bm : BuildMode) (hbm : bm = .rowWise ∨ bm = .unknown) :
    ∃ s c, (do ctor n m nnz bm; createbegin : BC B CIter) ⟨h, o⟩ = .ok c s ∧ c.pat = [] ∧ s.o.n = n ∧ s.o.m = m ∧
      s.h.dflt = h.dflt ∧
      (n = 0 → s.o.ready = .built ∧ s.o.rows = none ∧ s.o.nnz = nnz) ∧
      (0 < n → s.o.ready = .building) ∧
      (0 < n → nnz = 0 → RW0 s c n m [] (List.replicate n ⟨0, none, none⟩)) ∧
      (0 < n → 0 < nnz → ∃ b rest, RW1 s c n m nnz b [] rest (List.replicate n ⟨0, none, none⟩)) := by
  by_cases hn : n = 0
  · subst hn
    by_cases hz : nnz = 0
    all_goals
      rcases hbm with rfl | rfl <;>
      simp [ctor, createbegin, allocate, setO, Cmd.bind_def, empty, allocateRows, allocateIdx, Mem.alloc, hz,
        Nat.pos_of_ne_zero]
  · have hn' : 0 < n := Nat.pos_of_ne_zero hn
    by_cases hz : nnz = 0
    · subst hz
      rcases hbm with rfl | rfl
      all_goals
        simp [ctor, createbegin, allocate, setO, Cmd.bind_def, empty, allocateRows, allocateIdx, hn, hn']
        constructor <;> simp [RowsAre, hn]
    · have hz' : 0 < nnz := Nat.pos_of_ne_zero hz
      rcases hbm with rfl | rfl
      all_goals
        simp [ctor, createbegin, allocate, setO, Cmd.bind_def, empty, allocateRows, allocateIdx, Mem.alloc, hn, hn', hz, hz']
        refine ⟨h.js.length, List.replicate nnz h.junk, ?_⟩
        constructor <;> simp [RowsAre, hn, Mem.Holds]

theorem zip_const_rows (cs : List (List Nat)) (d : B) (i : Nat)
    (h : i < (List.zipWith List.zip cs (cs.map fun c => c.map fun _ => d)).length) (h2 : i < cs.length) :
    (List.zipWith List.zip cs (cs.map fun c => c.map fun _ => d))[i] = cs[i].map fun j => (j, d) := by
  simp only [List.getElem_zipWith, List.getElem_map]
  exact zip_map_const _ _

/-- For every size, every announced number of entries that suffices (or none) and every insertion sequence per row, the
row-wise program ends with a built matrix whose row `i` is exactly the ascending list of the different columns inserted
there (with default-initialised values), and `nonzeroes()` returns the number of its entries. -/
theorem C04_rowwise_build_exact (h : Heap B) (o : Obj B) (n m nnz : Nat) (bm : BuildMode)
    (hbm : bm = .rowWise ∨ bm = .unknown) (todo : List (List Nat)) (hlen : todo.length = n)
    (hsuf : nnz = 0 ∨ 0 < n ∧ (todo.map fun cols => cols.toFinset.card).sum ≤ nnz) :
    ∃ s, rowWiseProgram n m nnz bm todo ⟨h, o⟩ = .ok () s ∧ s.o.ready = .built ∧
      (∃ rows, view s = .ok (n, m, rows) ∧ rows.length = n ∧
        ∀ i (hi : i < rows.length) (hi2 : i < todo.length),
          rows[i] = todo[i].toFinset.sort.map fun j => (j, h.dflt)) ∧
      ∃ s', nonzeroes s = .ok (todo.map fun cols => cols.toFinset.card).sum s' := by
  obtain ⟨s1, c, h1, hpat, hn1, hm1, hd, hz, hready, hRW0, hRW1⟩ := rowWise_start h o n m nnz bm hbm
  have hprog : ∀ s2, buildRows c todo s1 = .ok () s2 → rowWiseProgram n m nnz bm todo ⟨h, o⟩ = .ok () s2 := by
    intro s2 h2
    have e : rowWiseProgram n m nnz bm todo ⟨h, o⟩ =
        ((do let c ← (do ctor n m nnz bm; createbegin : BC B CIter); buildRows c todo) : BC B Unit) ⟨h, o⟩ := by
      unfold rowWiseProgram
      simp only [Cmd.bind_def]
      cases ctor n m nnz bm (⟨h, o⟩ : St B) <;> rfl
    rw [e, Cmd.bind_ok h1, h2]
  by_cases hn0 : n = 0
  · subst hn0
    have htodo : todo = [] := List.length_eq_zero_iff.mp hlen
    subst htodo
    obtain ⟨z1, z2, z3⟩ := hz rfl
    have hnnz0 : nnz = 0 := by rcases hsuf with h | h; exact h; exact absurd h.1 (by omega)
    refine ⟨s1, hprog s1 rfl, z1, ⟨[], ?_, rfl, by simp⟩, ?_⟩
    · simp [view, z2, rowsView, hn1, hm1]
    · simp [nonzeroes, z3, hnnz0, totalSize, z2]
  · have hn' : 0 < n := Nat.pos_of_ne_zero hn0
    have hne : todo ≠ [] := by intro hc; subst hc; simp at hlen; omega
    have htot : ∀ (s : St B) (ws : List Win), RowsAre s.o ws → ws.length = (sorted todo).length →
        (∀ i (h : i < ws.length) (h2 : i < (sorted todo).length), ws[i].sz = (sorted todo)[i].length) →
        totalSize s.o = distinctTotal todo := by
      intro s ws hr hl hs
      rw [totalSize_eq hr, ← sorted_length_flatten, List.length_flatten]
      congr 1
      apply List.ext_getElem (by simpa using hl)
      intro i a b
      simp only [List.getElem_map]
      exact hs i (by simpa using a) (by simpa using b)
    by_cases hz0 : nnz = 0
    · obtain ⟨s2, ws, g1, g2, g3, g4, g5, g6⟩ := buildRows_RW0 todo (hRW0 hn' hz0) (hready hn') hpat hne (by simpa using hlen)
      rw [List.nil_append] at g6
      refine ⟨s2, hprog s2 g1, g6.ready, ⟨List.zipWith List.zip (sorted todo) ((sorted todo).map fun c => c.map fun _ => s1.h.dflt), ?_, ?_, ?_⟩, ?_⟩
      · rw [← g3, ← g4]; exact g6.view
      · simp [sorted, hlen]
      · intro i hi hi2
        rw [zip_const_rows _ _ _ _ (by simpa [sorted] using hi2), hd]
        simp [sorted]
      · have := htot s2 ws g6.rows g6.lc.symm (fun i h1 h2 => (g6.win i h1 h2 (by rw [g6.lv]; exact h1)).2.1)
        refine ⟨{ s2 with o := { s2.o with nnz := distinctTotal todo } }, ?_⟩
        simp only [nonzeroes, g2, if_true, this]
        rfl
    · have hsuf' : distinctTotal todo ≤ nnz := by rcases hsuf with h | h; exact absurd h hz0; exact h.2
      obtain ⟨b, rest, hR⟩ := hRW1 hn' (Nat.pos_of_ne_zero hz0)
      obtain ⟨hA, -⟩ := buildRows_RW1 (Nat.pos_of_ne_zero hz0) todo hR (hready hn') hpat hne (by simpa using hlen)
      obtain ⟨s2, rj, rv, ws, g1, g2, g3, g4, g5, g6⟩ := hA (by simpa using hsuf')
      rw [List.nil_append] at g6
      refine ⟨s2, hprog s2 g1, g6.ready, ⟨List.zipWith List.zip (sorted todo) ((sorted todo).map fun c => c.map fun _ => s1.h.dflt), ?_, ?_, ?_⟩, ?_⟩
      · rw [← g3, ← g4]; exact g6.view
      · simp [sorted, hlen]
      · intro i hi hi2
        rw [zip_const_rows _ _ _ _ (by simpa [sorted] using hi2), hd]
        simp [sorted]
      · have := htot s2 ws g6.rows g6.lc.symm (fun i h1 h2 => (g6.win i h1 h2 (by rw [g6.lv]; exact h1)).2.1)
        refine ⟨{ s2 with o := { s2.o with nnz := distinctTotal todo } }, ?_⟩
        have e : s2.o.nnz = distinctTotal todo := by simpa using g2
        simp only [nonzeroes, e, this, ite_self]
        rfl

/-- An announced number of entries that is too small makes the iteration throw. -/
theorem C04_rowwise_too_small_throws (h : Heap B) (o : Obj B) (n m nnz : Nat) (bm : BuildMode)
    (hbm : bm = .rowWise ∨ bm = .unknown) (todo : List (List Nat)) (hlen : todo.length = n) (hpos : 0 < nnz)
    (hbad : nnz < (todo.map fun cols => cols.toFinset.card).sum) :
    ∃ s, rowWiseProgram n m nnz bm todo ⟨h, o⟩ = .throw .bcrsMatrixError s := by
  obtain ⟨s1, c, h1, hpat, hn1, hm1, hd, hz, hready, -, hRW1⟩ := rowWise_start h o n m nnz bm hbm
  have hne : todo ≠ [] := by intro hc; subst hc; simp at hbad
  have hn' : 0 < n := by rw [← hlen]; exact List.length_pos_iff.mpr hne
  obtain ⟨b, rest, hR⟩ := hRW1 hn' hpos
  obtain ⟨-, hA⟩ := buildRows_RW1 hpos todo hR (hready hn') hpat hne (by simpa using hlen)
  obtain ⟨s2, g1⟩ := hA (by simpa [distinctTotal] using hbad)
  refine ⟨s2, ?_⟩
  have e : rowWiseProgram n m nnz bm todo ⟨h, o⟩ =
      ((do let c ← (do ctor n m nnz bm; createbegin : BC B CIter); buildRows c todo) : BC B Unit) ⟨h, o⟩ := by
    unfold rowWiseProgram
    simp only [Cmd.bind_def]
    cases ctor n m nnz bm (⟨h, o⟩ : St B) <;> rfl
  rw [e, Cmd.bind_ok h1, g1]

/-- Non-vacuity: three rows, one empty, repetitions, unordered; five different entries, six announced. -/
example : ([[2, 0, 2], [], [3, 1, 0]] : List (List Nat)).length = 3 ∧
    (([[2, 0, 2], [], [3, 1, 0]] : List (List Nat)).map fun cols => cols.toFinset.card).sum = 5 ∧ 5 ≤ 6 := by decide

end Istl
