import Verif.Lemmas.TextOut3

/-!
# C94: text output of vectors and matrices
-/

namespace Istl
namespace TextOut
open MatDim ForEach
variable {S : Type}

/-- `printvector` writes a title with the sizes and then all numbers of the vector in order, `|columns|` to a line, each line beginning with the
text and the index of its first number; afterwards the stream has its old format. -/
theorem C94_vector (title rowtext : String) {columns : Int} (hc : columns ≠ 0) (width prec : Int) (v : NVec S) (st : Stream S) :
    printvector title rowtext columns width prec v st = .ok ⟨st.fmt, st.out ++
      [.text 0 title, .text 0 " [blocks=", .idx 0 (blockCount v), .text 0 ",dimension=", .idx 0 v.leaves.length, .text 0 "]", .endl] ++
      (List.range (lineCount columns.natAbs v.leaves.length)).flatMap (vecLine rowtext columns.natAbs width (sciFmt st.fmt prec) v.leaves)⟩ ∧
    (List.range (lineCount columns.natAbs v.leaves.length)).flatMap (fun k => group columns.natAbs k v.leaves) = v.leaves ∧
    ∀ k, k < lineCount columns.natAbs v.leaves.length → group columns.natAbs k v.leaves ≠ [] := by
  have hbl : blockCount v = blocks v := by cases v <;> rfl
  rw [hbl]
  have hpos : 0 < columns.natAbs := Int.natAbs_pos.mpr hc
  refine ⟨?_, (group_flat_all _ hpos _).1, fun k hk h0 => ?_⟩
  · simp only [printvector, recursive_leaves]
    rw [fold_text rowtext hc width _ _ _ rfl, Res.ok_bind, if_neg hc, ← vecText_end rowtext hpos]
    dsimp only
    have hn : Int.tmod (v.leaves.length : Int) columns ≠ 0 ↔ v.leaves.length % columns.natAbs ≠ 0 := not_congr (tmod_iff _ _)
    simp only [hn, dim_leaves]
    by_cases hr : v.leaves.length % columns.natAbs = 0
    · simp [hr, Stream.put, Stream.restore, Stream.setScientific, sciFmt]
    · simp [hr, Stream.put, Stream.restore, Stream.setScientific, sciFmt]
  · have h1 : v.leaves.length ≤ k * columns.natAbs := by
      unfold group at h0
      rcases List.take_eq_nil_iff.mp h0 with h | h
      · omega
      · exact List.drop_eq_nil_iff.mp h
    unfold lineCount at hk
    rw [Nat.lt_div_iff_mul_lt hpos] at hk
    omega

/-- No columns: the remainder by zero is undefined, even for an empty vector. -/
theorem C94_vector_no_columns (title rowtext : String) (width prec : Int) (v : NVec S) (st : Stream S) :
    printvector title rowtext 0 width prec v st = .ub := by
  simp only [printvector, recursive_leaves]
  cases hl : v.leaves with
  | nil => rfl
  | cons x l => rfl

/-- `writeVectorToMatlab` writes the numbers of the vector in order, one to a line, nothing else. -/
theorem C94_matlab_vector (prec : Int) (v : NVec S) :
    (writeVectorToMatlab prec v).out = v.leaves.flatMap fun x => [.val 0 ⟨false, false, 0, prec⟩ x, .endl] := by
  simp [writeVectorToMatlab, matlab_leaves, Stream.put]

/-- `printmatrix` writes a title with the sizes and then one line for every row of the flat matrix behind the nested one, with its number and one
field for every column: the number stored there, or a dot. Afterwards the stream has its old format. -/
theorem C94_matrix {A : MMat S} {R C : Nat} {P : Nat → Nat → S → Prop} (h : Layout A R C P) (hf : FullCols A) (hC : C < 2 ^ 64)
    (title rowtext : String) (width prec : Int) (st : Stream S) :
    ∃ cells : Nat → List (Option S), (∀ r, r < R → RowShows P r C (cells r)) ∧
      printmatrix title rowtext width prec A st = .ok ⟨st.fmt, st.out ++
        [.text 0 title, .text 0 " [n=", .idx 0 (blockSizes A).1, .text 0 ",m=", .idx 0 (blockSizes A).2, .text 0 ",rowdim=", .idx 0 R, .text 0 ",coldim=", .idx 0 C,
          .text 0 "]", .endl] ++
        (List.range R).flatMap (fun r => matLine rowtext width (sciFmt st.fmt prec) r (cells r))⟩ := by
  have hsz : blockSizes A = sizeOf2 A := by cases A <;> rfl
  rw [hsz]
  have hb : BlocksFull A := by
    cases A with
    | scalar s => trivial
    | node k n m pat entry => exact hf.blocks
  have hrow : ∀ r, ∃ cells, r < R → printRow A 0 r = .ok cells ∧ RowShows P r C cells := by
    intro r
    by_cases hr : r < R
    · obtain ⟨c, h1, h2⟩ := printRow_layout h hb hC 0 r hr
      rw [Nat.zero_add] at h1
      exact ⟨c, fun _ => ⟨h1, h2⟩⟩
    · exact ⟨[], fun h => absurd h hr⟩
  choose cells hcells using hrow
  refine ⟨cells, fun r hr => (hcells r hr).2, ?_⟩
  have hfield : ∀ (f : Fmt) (l : List (Option S)), l.flatMap (field width f) = l.flatMap (fun x => match x with
      | some x => [.text 0 " ", .val width f x]
      | none => [.text 0 " ", .text width.toNat "."]) := fun f l =>
    congrArg (fun g => l.flatMap g) (funext fun x => by cases x <;> rfl)
  simp only [printmatrix, rowdim_layout h, coldim_layout h hf hC, Res.ok_bind]
  generalize hs : (st.setScientific prec).put _ = s0
  have hs0 : s0 = ⟨sciFmt st.fmt prec, st.out ++ [.text 0 title, .text 0 " [n=", .idx 0 (sizeOf2 A).1, .text 0 ",m=", .idx 0 (sizeOf2 A).2,
      .text 0 ",rowdim=", .idx 0 R, .text 0 ",coldim=", .idx 0 C, .text 0 "]", .endl]⟩ := by
    rw [← hs]; rfl
  obtain ⟨s, h1, h2⟩ := forRangeM_inv R (fun i (s : Stream S) => do
      let l ← printRow A 0 i
      .ok (s.put ([.text 0 rowtext, .text 0 " ", .idx 4 i] ++ l.flatMap (field width s.fmt) ++ [.endl])))
    (fun i s => s = ⟨s0.fmt, s0.out ++ (List.range i).flatMap (fun r => matLine rowtext width (sciFmt st.fmt prec) r (cells r))⟩) s0 (by simp)
    (by
      rintro i s hi rfl
      rw [(hcells i hi).1, Res.ok_bind]
      refine ⟨_, rfl, ?_⟩
      rw [List.range_succ, List.flatMap_append, List.flatMap_singleton, hfield]
      simp only [Stream.put, hs0, List.append_assoc]
      rfl)
  rw [h1, Res.ok_bind, h2, hs0]
  rfl

/-- Empty rows and columns of a matrix are left out (as the documentation warns): a matrix of size two by two with the entry in the second row and
first column is printed as one line with number 0 and one field, and its width is said to be 0. -/
theorem C94_empty_rows_counterexample (x : S) (f : Fmt) :
    printmatrix "A" "row" 10 2 (.node .bcrs 2 2 (fun i => if i = 1 then [0] else []) fun _ _ => .scalar x) ⟨f, []⟩ = .ok ⟨f,
      [.text 0 "A", .text 0 " [n=", .idx 0 2, .text 0 ",m=", .idx 0 2, .text 0 ",rowdim=", .idx 0 1, .text 0 ",coldim=", .idx 0 0, .text 0 "]", .endl,
        .text 0 "row", .text 0 " ", .idx 4 0, .text 0 " ", .val 10 (sciFmt f 2) x, .endl]⟩ := by
  have h1 : rowdim (.node .bcrs 2 2 (fun i => if i = 1 then [0] else []) fun _ _ => .scalar x : MMat S) = .ok 1 := by
    simp [rowdim, forRangeM, List.range_succ, Res.ok_bind]
  have h2 : coldim (.node .bcrs 2 2 (fun i => if i = 1 then [0] else []) fun _ _ => .scalar x : MMat S) = .ok 0 := by
    simp [coldim, forRangeM, List.range_succ, Res.ok_bind, sumColdims, forRange, upd, W]
  have h3 : printRow (.node .bcrs 2 2 (fun i => if i = 1 then [0] else []) fun _ _ => .scalar x : MMat S) 0 0 = .ok [some x] := by
    simp [printRow, forRangeM, List.range_succ, Res.ok_bind, rowdimAt, coldimAt, rowdim, coldim]
  simp [printmatrix, h1, h2, h3, Res.ok_bind, forRangeM, List.range_succ, Stream.put, Stream.restore, Stream.setScientific, sizeOf2, field, sciFmt]

/-- `printSparseMatrix` with a positive `width`: row by row the stored blocks, `width` of them side by side, `nb` lines for each group and an empty
line after them (a row without blocks has one empty group), with the row and column numbers in the first line; every stored block is in
exactly one group. It terminates, and the stream has its old format. -/
theorem C94_sparse (title rowtext : String) {width : Int} (hw : 0 < width) (prec : Int) (n m mb : Nat) {nb : Nat} (hnb : 0 < nb) (pat : Nat → List Nat)
    (elt : Nat → Nat → Nat → Nat → Option S) (st : Stream S) :
    (∃ need, ∀ fuel, need ≤ fuel → printSparseMatrix title rowtext width prec n m nb mb pat elt fuel st = some ⟨st.fmt, st.out ++
      [.text 0 title, .text 0 " [n=", .idx 0 n, .text 0 ",m=", .idx 0 m, .text 0 ",rowdim=", .idx 0 (n * nb), .text 0 ",coldim=", .idx 0 (m * mb),
        .text 0 "]", .endl] ++
      (List.range n).flatMap (fun i => sparseRow (sciFmt st.fmt prec) rowtext nb mb i (elt i) width.toNat (pat i))⟩) ∧
    ∀ i, (List.range (groupCount width.toNat (pat i).length)).flatMap (fun k => group width.toNat k (pat i)) = pat i := by
  obtain ⟨c, rfl⟩ : ∃ c : Nat, width = c := ⟨width.toNat, by omega⟩
  have hc : 0 < c := by omega
  refine ⟨⟨((List.range n).map fun i => (pat i).length).sum + 1, fun fuel hf => ?_⟩, fun i => (group_flat_all c hc _).2⟩
  simp only [printSparseMatrix, Int.toNat_natCast]
  rw [rows_eq c hc hnb fuel _ _ (fun i hi => by
    have : (pat i).length ≤ ((List.range n).map fun i => (pat i).length).sum := List.single_le_sum (by simp) _ (List.mem_map_of_mem (f := fun i => (pat i).length) hi)
    omega)]
  simp [Stream.put, Stream.restore, Stream.setScientific, sciFmt]

/-- With `width ≤ 0` and a stored block, or with blocks that have no rows, it never ends. -/
theorem C94_sparse_never (title rowtext : String) {width : Int} (prec : Int) {n : Nat} (m mb : Nat) {nb : Nat} {pat : Nat → List Nat}
    (elt : Nat → Nat → Nat → Nat → Option S) (st : Stream S) (h : ∃ i, i < n ∧ (nb = 0 ∨ (width ≤ 0 ∧ pat i ≠ []))) :
    ∀ fuel, printSparseMatrix title rowtext width prec n m nb mb pat elt fuel st = none := by
  intro fuel
  obtain ⟨i, hi, h⟩ := h
  simp only [printSparseMatrix]
  rw [rows_never fuel _ _ ⟨i, List.mem_range.mpr hi, h⟩]

/-! ### Examples -/

/-- Three numbers in two blocks, two to a line. -/
example (f : Fmt) : printvector "v" "r" 2 10 3 (.node 2 fun i => .node (i + 1) fun j => .scalar (10 * i + j)) ⟨f, []⟩ = .ok ⟨f,
    [.text 0 "v", .text 0 " [blocks=", .idx 0 2, .text 0 ",dimension=", .idx 0 3, .text 0 "]", .endl,
      .text 0 "r", .text 0 " ", .idx 4 0, .text 0 " ", .val 10 (sciFmt f 3) 0, .text 0 " ", .val 10 (sciFmt f 3) 10, .endl,
      .text 0 "r", .text 0 " ", .idx 4 2, .text 0 " ", .val 10 (sciFmt f 3) 11, .endl]⟩ := by
  rw [(C94_vector "v" "r" (columns := 2) (by decide) 10 3 _ _).1]
  rfl

/-- A matrix of one row and three columns of blocks of one number, two to a line. -/
example : (printSparseMatrix "A" "r" 2 3 1 3 1 1 (fun _ => [0, 1, 2]) (fun _ j _ _ => some j) 4 ⟨⟨false, false, 0, 6⟩, []⟩).isSome = true := by decide +kernel

/-- A nested matrix with blocks of different sizes: `[1 2 | .]` over `[. . | 3]`. -/
def exMat : MMat Nat := .node .bcrs 2 2 (fun i => [i]) fun i _ =>
  if i = 0 then .node .flat 1 2 (fun _ => [0, 1]) fun _ j => .scalar (j + 1) else .scalar 3

/-- `C94_matrix` applies to it. -/
example : (∃ P, Layout exMat 2 3 P) ∧ FullCols exMat := by
  have h0 : Layout (.node .flat 1 2 (fun _ => [0, 1]) fun _ j => .scalar (j + 1) : MMat Nat) 1 2 _ :=
    .node .flat 1 2 _ _ (fun _ => 1) (fun _ => 1) (fun _ j r c x => r = 0 ∧ c = 0 ∧ x = j + 1) (fun i _ => by simp) ⟨fun _ _ => rfl, fun _ _ => rfl⟩
      (fun i j _ _ => .scalar (j + 1))
  have h1 : Layout (.scalar 3 : MMat Nat) 1 1 _ := .scalar 3
  constructor
  · have : ∀ i j, ∃ Q : Nat → Nat → Nat → Prop, i < 2 → j ∈ [i] →
        Layout (if i = 0 then .node .flat 1 2 (fun _ => [0, 1]) fun _ j => .scalar (j + 1) else .scalar 3 : MMat Nat) 1 (if j = 0 then 2 else 1) Q := by
      intro i j
      by_cases h : i = 0
      · have h0' : ∃ Q, Layout (.node .flat 1 2 (fun _ => [0, 1]) fun _ j => .scalar (j + 1) : MMat Nat) 1 2 Q := ⟨_, h0⟩
        obtain ⟨Q, hQ⟩ := h0'
        exact ⟨Q, fun hi hj => by rw [List.mem_singleton.mp hj, if_pos h, if_pos h]; exact hQ⟩
      · have h1' : ∃ Q, Layout (.scalar 3 : MMat Nat) 1 1 Q := ⟨_, h1⟩
        obtain ⟨Q, hQ⟩ := h1'
        exact ⟨Q, fun hi hj => by rw [List.mem_singleton.mp hj, if_neg h, if_neg h]; exact hQ⟩
    choose Q hQ using this
    exact ⟨_, .node .bcrs 2 2 (fun i => [i]) _ (fun _ => 1) (fun j => if j = 0 then 2 else 1) Q (fun i hi => ⟨by simp, fun j hj => by
      rw [List.mem_singleton.mp hj]; exact hi⟩) ⟨fun i _ h => by simp at h, fun j hj h => absurd (h j hj) (by simp)⟩ hQ⟩
  · refine ⟨fun j hj => ⟨j, hj, by simp⟩, fun i j _ _ => ?_⟩
    by_cases h : i = 0
    · simp only [h, if_true]; exact fun _ _ _ _ => trivial
    · simp only [h, if_false]; trivial

end TextOut
end Istl
