import Verif.Lemmas.BcrsRandom2

/-! # C02, C03 — random build mode -/

namespace Istl
open Bcrs
variable {B : Type}

/-- The whole random-mode program, ended by the first exception. -/
def randomProgramStrict (n m nnz : Nat) (sizes : List SizeOp) (calls : List (Nat × Nat)) : BC B Unit := do
  ctor n m nnz .random
  runSizes sizes
  endrowsizes
  runAddsStrict calls
  endindices

/-- The program up to some insertions. -/
def randomPrefix (n m nnz : Nat) (sizes : List SizeOp) (calls : List (Nat × Nat)) : BC B Unit := do
  ctor n m nnz .random
  runSizes sizes
  endrowsizes
  runAdds calls

theorem randomPrefix_pat (h : Heap B) (o : Obj B) (n m nnz : Nat) (sizes : List SizeOp) (calls : List (Nat × Nat))
    (hs : ∀ op ∈ sizes, op.row < n) (hc : ∀ c ∈ calls, c.1 < n)
    (hsuf : nnz = 0 ∨ ∑ i ∈ Finset.range n, announced sizes i ≤ nnz) :
    ∃ s, randomPrefix n m nnz sizes calls ⟨h, o⟩ = .ok () s ∧
      Pat s n m (announced sizes) (collected m (announced sizes) calls) := by
  obtain ⟨s1, h1, H1⟩ := ctor_sizing h o n m nnz
  obtain ⟨s2, ws, h2, H2, hsz⟩ := runSizes_sizing H1 (by simp) sizes hs
  obtain ⟨s3, h3, H3⟩ := endrowsizes_pat H2 (announced sizes) hsz hsuf
  obtain ⟨s4, h4, -, -, H4⟩ := runAdds_pat H3 calls hc
  refine ⟨s4, ?_, H4⟩
  unfold randomPrefix
  rw [Cmd.bind_ok h1, Cmd.bind_ok h2, Cmd.bind_ok h3, h4]

/-- For every matrix size, every sequence of size calls and every sequence of insertions (in any order, with
repetitions, with rejected ones caught), the finished matrix is built and its row `i` is exactly the ascending
list of the accepted columns. -/
theorem C02_random_build_exact (h : Heap B) (o : Obj B) (n m nnz : Nat) (sizes : List SizeOp) (calls : List (Nat × Nat))
    (hs : ∀ op ∈ sizes, op.row < n) (hc : ∀ c ∈ calls, c.1 < n)
    (hsuf : nnz = 0 ∨ ∑ i ∈ Finset.range n, announced sizes i ≤ nnz) :
    ∃ s rows, randomProgram n m nnz sizes calls ⟨h, o⟩ = .ok () s ∧ s.o.ready = .built ∧ view s = .ok (n, m, rows) ∧
      rows.length = n ∧
      ∀ i (hi : i < rows.length), rows[i].map Prod.fst = (collected m (announced sizes) calls i).sort := by
  obtain ⟨s1, h1, -, H1⟩ : ∃ s, randomPrefix n m nnz sizes calls ⟨h, o⟩ = .ok () s ∧ True ∧
      Pat s n m (announced sizes) (collected m (announced sizes) calls) := by
    obtain ⟨s, h1, h2⟩ := randomPrefix_pat h o n m nnz sizes calls hs hc hsuf
    exact ⟨s, h1, trivial, h2⟩
  obtain ⟨s2, rows, h2, hb, hv, hl, hr⟩ := endindices_pat H1
  refine ⟨s2, rows, ?_, hb, hv, hl, ?_⟩
  · have e : randomProgram n m nnz sizes calls ⟨h, o⟩ = (do randomPrefix n m nnz sizes calls; endindices : BC B Unit) ⟨h, o⟩ := by
      unfold randomProgram randomPrefix
      simp only [Cmd.bind_def]
      cases ctor n m nnz .random (⟨h, o⟩ : St B) with
      | ok a s =>
        simp only
        cases runSizes sizes s with
        | ok a s =>
          simp only
          cases endrowsizes s with
          | ok a s => simp only
          | throw e s => simp only
          | ub => simp only
        | throw e s => simp only
        | ub => simp only
      | throw e s => simp only
      | ub => simp only
    rw [e, Cmd.bind_ok h1, h2]
  · intro i hi
    rw [hr i hi, List.map_map]
    exact List.map_id' _

/-- If the program runs through without an exception, row `i` holds exactly the columns passed to `addindex(i,.)`, each
once and in ascending order. -/
theorem C02_random_build_pattern (h : Heap B) (o : Obj B) (n m nnz : Nat) (sizes : List SizeOp)
    (calls : List (Nat × Nat)) (hs : ∀ op ∈ sizes, op.row < n) (hc : ∀ c ∈ calls, c.1 < n) (s : St B)
    (hrun : randomProgramStrict n m nnz sizes calls ⟨h, o⟩ = .ok () s) :
    s.o.ready = .built ∧ ∃ rows, view s = .ok (n, m, rows) ∧ rows.length = n ∧
      ∀ i (hi : i < rows.length), (rows[i]).Asc ∧ ∀ j, (rows[i]).Has j ↔ (i, j) ∈ calls := by
  obtain ⟨s1, h1, H1⟩ := ctor_sizing h o n m nnz
  obtain ⟨s2, ws, h2, H2, hsz⟩ := runSizes_sizing H1 (by simp) sizes hs
  have hlen : ws.length = n := by rw [H2.rows.1, H2.hn]
  by_cases hsuf : nnz = 0 ∨ ∑ i ∈ Finset.range n, announced sizes i ≤ nnz
  · obtain ⟨s3, h3, H3⟩ := endrowsizes_pat H2 (announced sizes) hsz hsuf
    unfold randomProgramStrict at hrun
    rw [Cmd.bind_ok h1, Cmd.bind_ok h2, Cmd.bind_ok h3] at hrun
    cases h4 : runAddsStrict calls s3 with
    | ok a s4 =>
      obtain ⟨-, S', H4, hS'⟩ := runAddsStrict_ok H3 calls hc s4 h4
      rw [Cmd.bind_ok h4] at hrun
      obtain ⟨s5, rows, h5, hb, hv, hl, hr⟩ := endindices_pat H4
      rw [h5] at hrun
      simp only [Out.ok.injEq, true_and] at hrun
      subst hrun
      refine ⟨hb, rows, hv, hl, ?_⟩
      intro i hi
      have e : rows[i].map Prod.fst = (S' i).sort := by
        rw [hr i hi, List.map_map]; exact List.map_id' _
      refine ⟨?_, ?_⟩
      · unfold Row.Asc
        rw [e]
        exact sort_asc _
      · intro j
        have : (rows[i]).Has j ↔ j ∈ rows[i].map Prod.fst := by
          simp [Row.Has]
        rw [this, e, Finset.mem_sort, hS' i j]
        simp
    | throw e s4 => rw [Cmd.bind_throw h4] at hrun; cases hrun
    | ub => rw [Cmd.bind_ub h4] at hrun; cases hrun
  · push Not at hsuf
    have := endrowsizes_throw H2 ⟨hsuf.1, by rw [sum_range_eq ws _ hsz, hlen]; exact hsuf.2⟩
    unfold randomProgramStrict at hrun
    rw [Cmd.bind_ok h1, Cmd.bind_ok h2, Cmd.bind_throw this] at hrun
    cases hrun

/-- After any history of the random mode, `addindex(i,j)` succeeds exactly when `j` is a valid column that is in the row
already or fits in it; a rejected call throws `BCRSMatrixError` and leaves the matrix (and all memory) as it was; an index that
is present already changes nothing. -/
theorem C03_addindex_exact (h : Heap B) (o : Obj B) (n m nnz : Nat) (sizes : List SizeOp) (calls : List (Nat × Nat))
    (hs : ∀ op ∈ sizes, op.row < n) (hc : ∀ c ∈ calls, c.1 < n)
    (hsuf : nnz = 0 ∨ ∑ i ∈ Finset.range n, announced sizes i ≤ nnz) (i j : Nat) (hi : i < n) :
    ∃ s, randomPrefix n m nnz sizes calls ⟨h, o⟩ = .ok () s ∧
      (Accept m (announced sizes) (collected m (announced sizes) calls) i j → ∃ s', addindex i j s = .ok () s') ∧
      (¬ Accept m (announced sizes) (collected m (announced sizes) calls) i j →
        addindex i j s = .throw .bcrsMatrixError s) ∧
      (j ∈ collected m (announced sizes) calls i → addindex i j s = .ok () s) := by
  obtain ⟨s, h1, H⟩ := randomPrefix_pat h o n m nnz sizes calls hs hc hsuf
  obtain ⟨a, b, c⟩ := addindex_pat H hi j
  exact ⟨s, h1, fun h => let ⟨s', h', _⟩ := c h; ⟨s', h'⟩, b, a⟩

/-- The number of non-zeroes announced to the constructor, if any, is checked by `endrowsizes()`: too small throws and
leaves the matrix in the sizing stage, otherwise it succeeds. -/
theorem C03_endrowsizes_exact (h : Heap B) (o : Obj B) (n m nnz : Nat) (sizes : List SizeOp)
    (hs : ∀ op ∈ sizes, op.row < n) :
    ∃ s, (do ctor n m nnz .random; runSizes sizes : BC B Unit) ⟨h, o⟩ = .ok () s ∧
      ((nnz = 0 ∨ ∑ i ∈ Finset.range n, announced sizes i ≤ nnz) → ∃ s', endrowsizes s = .ok () s') ∧
      (¬ (nnz = 0 ∨ ∑ i ∈ Finset.range n, announced sizes i ≤ nnz) → endrowsizes s = .throw .bcrsMatrixError s) := by
  obtain ⟨s1, h1, H1⟩ := ctor_sizing h o n m nnz
  obtain ⟨s2, ws, h2, H2, hsz⟩ := runSizes_sizing H1 (by simp) sizes hs
  have hlen : ws.length = n := by rw [H2.rows.1, H2.hn]
  refine ⟨s2, by rw [Cmd.bind_ok h1, h2], ?_, ?_⟩
  · intro hsuf
    obtain ⟨s3, h3, -⟩ := endrowsizes_pat H2 (announced sizes) hsz hsuf
    exact ⟨s3, h3⟩
  · intro hsuf
    push Not at hsuf
    exact endrowsizes_throw H2 ⟨hsuf.1, by rw [sum_range_eq ws _ hsz, hlen]; exact hsuf.2⟩

/-- Non-vacuity: three rows, over-estimated sizes, repetitions, unordered and rejected insertions. -/
example : (∀ op ∈ [SizeOp.set 0 3, .set 1 2, .inc 2 1, .inc 1 1], op.row < 3) ∧
    (∀ c ∈ [(1, 2), (1, 0), (1, 2), (0, 1), (2, 7), (2, 1), (2, 2)], Prod.fst c < 3) ∧
    (collected 3 (announced [SizeOp.set 0 3, .set 1 2, .inc 2 1, .inc 1 1])
      [(1, 2), (1, 0), (1, 2), (0, 1), (2, 7), (2, 1), (2, 2)]) 1 = {0, 2} ∧
    (collected 3 (announced [SizeOp.set 0 3, .set 1 2, .inc 2 1, .inc 1 1])
      [(1, 2), (1, 0), (1, 2), (0, 1), (2, 7), (2, 1), (2, 2)]) 2 = {1} := by
  refine ⟨by decide, by decide, by decide, by decide⟩

/-- Non-vacuity of `C02_random_build_pattern`: a run without exceptions, with a repetition and unordered insertions. -/
example : ∃ s, randomProgramStrict 2 3 0 [.set 0 2, .inc 1 2] [(1, 2), (0, 1), (1, 0), (1, 2)]
    (⟨⟨[], [], 77, 0, 0⟩, empty⟩ : St Int) = .ok () s := by
  apply Out.exists_of_isOk
  decide +kernel

end Istl
