import Verif.Lemmas.MatrixMarket3
import Verif.Lemmas.MatrixMarketVec

/-!
# C47: Matrix Market files

Reading a coordinate file gives the matrix it describes, whatever the structure in the banner and wherever the comments are; reading what
has been written gives the same matrix or vector. What does not hold is at the end.
-/

namespace Istl
namespace MM
open Bcrs

section
variable {K : Type} [Zero K] [Neg K] {r c : Nat}

/-- Reading a file of `nb*r × mb*c` numbers into a default-constructed matrix of `r × c` blocks. Whatever the structure given in the banner
and wherever comments are interspersed, if no row index is out of range and the number of blocks reserved is enough (always so if it
computes to zero) the result is the described matrix: blocks exactly where there are entries, the mirrored entries included, and the
first entry given for a position is its value. -/
theorem C47_read (cd : Codec K) (hcd : cd.Lossless) (conj : K → K) (ct : CType) (st : Structure) (comments : List (List Char))
    (hcm : ∀ x ∈ comments, '\n' ∉ x) (hr : 0 < r) (hc : 0 < c) (nb mb : Nat) (ls : List (Line K))
    (hlc : ∀ l ∈ ls, ∀ x ∈ l.comments, '\n' ∉ x) (hrow : ∀ t ∈ allEntries st conj ls, t.1 < nb * r)
    (hE : (st = .symmetric ∨ st = .hermitian) → nb * r ≤ 2 * ls.length)
    (hres : reserved st r c (nb * r) ls.length = 0 ∨
      0 < nb ∧ ((List.range nb).map fun I => (touched (allEntries st conj ls) r c I).card).sum ≤ reserved st r c (nb * r) ls.length)
    (h : Heap (Fin r → Fin c → K)) (bm : BuildMode) (hbm : bm ≠ .implicit) :
    ∃ A s, readMatrix r c (getVal cd) conj (In.ofText (fileText ct st comments (nb * r) (mb * c) cd.print ls)) ⟨h, empty bm⟩ = .ok A s ∧
      s.o.ready = .built ∧ SameMat A (described r c nb mb (allEntries st conj ls)) :=
  (read_spec (reads_getVal hcd) conj ct st comments hcm hr hc nb mb ls hlc hrow hE h bm hbm).1 hres

/-- The same for files with complex numbers, written as the format demands: real part, blank, imaginary part. -/
theorem C47_read_complex (cd : Codec K) (hcd : cd.Lossless) (conj : K × K → K × K) (ct : CType) (st : Structure) (comments : List (List Char))
    (hcm : ∀ x ∈ comments, '\n' ∉ x) (hr : 0 < r) (hc : 0 < c) (nb mb : Nat) (ls : List (Line (K × K)))
    (hlc : ∀ l ∈ ls, ∀ x ∈ l.comments, '\n' ∉ x) (hrow : ∀ t ∈ allEntries st conj ls, t.1 < nb * r)
    (hE : (st = .symmetric ∨ st = .hermitian) → nb * r ≤ 2 * ls.length)
    (hres : reserved st r c (nb * r) ls.length = 0 ∨
      0 < nb ∧ ((List.range nb).map fun I => (touched (allEntries st conj ls) r c I).card).sum ≤ reserved st r c (nb * r) ls.length)
    (h : Heap (Fin r → Fin c → K × K)) (bm : BuildMode) (hbm : bm ≠ .implicit) :
    ∃ A s, readMatrix r c (getComplex cd) conj
        (In.ofText (fileText ct st comments (nb * r) (mb * c) (fun z => cd.print z.1 ++ ' ' :: cd.print z.2) ls)) ⟨h, empty bm⟩ = .ok A s ∧
      s.o.ready = .built ∧ SameMat A (described r c nb mb (allEntries st conj ls)) :=
  (read_spec (reads_getComplex hcd) conj ct st comments hcm hr hc nb mb ls hlc hrow hE h bm hbm).1 hres

/-- If too few blocks are reserved (and not none), reading throws `BCRSMatrixError`. -/
theorem C47_too_few_reserved_throws (cd : Codec K) (hcd : cd.Lossless) (conj : K → K) (ct : CType) (st : Structure) (comments : List (List Char))
    (hcm : ∀ x ∈ comments, '\n' ∉ x) (hr : 0 < r) (hc : 0 < c) (nb mb : Nat) (ls : List (Line K))
    (hlc : ∀ l ∈ ls, ∀ x ∈ l.comments, '\n' ∉ x) (hrow : ∀ t ∈ allEntries st conj ls, t.1 < nb * r)
    (hE : (st = .symmetric ∨ st = .hermitian) → nb * r ≤ 2 * ls.length)
    (h1 : 0 < reserved st r c (nb * r) ls.length)
    (h2 : reserved st r c (nb * r) ls.length < ((List.range nb).map fun I => (touched (allEntries st conj ls) r c I).card).sum)
    (h : Heap (Fin r → Fin c → K)) (bm : BuildMode) (hbm : bm ≠ .implicit) :
    ∃ s, readMatrix r c (getVal cd) conj (In.ofText (fileText ct st comments (nb * r) (mb * c) cd.print ls)) ⟨h, empty bm⟩ =
      .throw .bcrsMatrixError s :=
  (read_spec (reads_getVal hcd) conj ct st comments hcm hr hc nb mb ls hlc hrow hE h bm hbm).2 ⟨h1, h2⟩

theorem round_trip {value : In → Option K × In} {print : K → List Char} (hv : Reads value print) (conj : K → K) (ct : CType) (hr : 0 < r) (hc : 0 < c)
    (A : SpMat (Fin r → Fin c → K)) (hA : A.WF) (h : Heap (Fin r → Fin c → K)) (bm : BuildMode) (hbm : bm ≠ .implicit) :
    ∃ A' s, readMatrix r c value conj (In.ofText (writeMatrix ct print A)) ⟨h, empty bm⟩ = .ok A' s ∧ s.o.ready = .built ∧ SameMat A' A := by
  have hm := mem_allEntries_general A conj
  have hlen := linesOf_length A
  obtain ⟨hok, -⟩ := read_spec hv conj ct .general [" ISTL_STRUCT blocked ".toList ++ (dec r ++ ' ' :: dec c)] (by
      intro x hx
      rw [List.mem_singleton.1 hx, List.mem_append, List.mem_append, List.mem_cons]
      rintro (h | h | h | h)
      · exact absurd h (by decide)
      · exact absurd ((dec_spec r).2.1 _ h) (by decide)
      · exact absurd h (by decide)
      · exact absurd ((dec_spec c).2.1 _ h) (by decide)) hr hc A.n A.m (linesOf A) (by
      intro l hl x hx
      obtain ⟨I, hI, e, he, a, b, rfl⟩ := (mem_linesOf A l).1 hl
      exact absurd hx (by simp)) (by
      intro t ht
      obtain ⟨I, hI, e, he, a, b, rfl⟩ := (hm t).1 ht
      have : (I + 1) * r ≤ A.n * r := Nat.mul_le_mul_right r hI
      have := a.isLt
      simp only
      rw [Nat.add_mul] at *
      omega) (by rintro (h | h) <;> exact absurd h (by decide)) h bm hbm
  have hres : reserved .general r c (A.n * r) (linesOf A).length = ((List.range A.n).map fun I => (A.row I).length).sum := by
    unfold reserved
    rw [hlen]
    exact Nat.mul_div_cancel _ (Nat.mul_pos hr hc)
  have hS : ((List.range A.n).map fun I => (touched (allEntries .general conj (linesOf A)) r c I).card).sum =
      ((List.range A.n).map fun I => (A.row I).length).sum := by
    refine congrArg List.sum (List.map_congr_left fun I hI => ?_)
    have := congrArg List.length (described_linesOf A hA hr hc conj I (List.mem_range.1 hI)).1
    simpa using this
  obtain ⟨A', s, e1, e2, e3, e4, e5⟩ := hok (by
    rw [hS, hres]
    rcases Nat.eq_zero_or_pos A.n with h0 | h0
    · left; rw [h0]; simp
    · exact .inr ⟨h0, le_refl _⟩)
  refine ⟨A', s, ?_, e2, e3, e4, ?_⟩
  · rw [writeMatrix_eq]; exact e1
  · intro I hI
    rw [e5 I hI]
    exact (described_linesOf A hA hr hc conj I (by rw [e3] at hI; exact hI)).2

/-- Writing a matrix and reading the file gives the same matrix: same sizes, same pattern, same blocks. -/
theorem C47_round_trip (cd : Codec K) (hcd : cd.Lossless) (conj : K → K) (ct : CType) (hr : 0 < r) (hc : 0 < c)
    (A : SpMat (Fin r → Fin c → K)) (hA : A.WF) (h : Heap (Fin r → Fin c → K)) (bm : BuildMode) (hbm : bm ≠ .implicit) :
    ∃ A' s, readMatrix r c (getVal cd) conj (In.ofText (writeMatrix ct cd.print A)) ⟨h, empty bm⟩ = .ok A' s ∧ s.o.ready = .built ∧ SameMat A' A :=
  round_trip (reads_getVal hcd) conj ct hr hc A hA h bm hbm

omit [Neg K] in
/-- Writing a vector and reading the file gives the same vector. -/
theorem C47_vector_round_trip {k : Nat} (cd : Codec K) (hcd : cd.Lossless) (hk : 0 < k) (fresh : Fin k → K) (ct : CType) (v : List (Fin k → K)) :
    readVector k fresh cd (In.ofText (writeVector ct cd.print v)) = .ok v :=
  readVector_write hcd hk fresh ct v

/-- A file with fewer entries than announced: an uninitialised variable is used as row index. -/
theorem C47_truncated_counterexample (cd : Codec K) (hcd : cd.Lossless) (conj : K → K) (ct : CType) (st : Structure) (comments : List (List Char))
    (hcm : ∀ x ∈ comments, '\n' ∉ x) (hr : 0 < r) (nb mb : Nat) (ls : List (Line K))
    (hlc : ∀ l ∈ ls, ∀ x ∈ l.comments, '\n' ∉ x) (hrow : ∀ t ∈ allEntries st conj ls, t.1 < nb * r) (E : Nat) (hE : ls.length < E)
    (h : Heap (Fin r → Fin c → K)) (bm : BuildMode) (hbm : bm ≠ .implicit) :
    readMatrix r c (getVal cd) conj
      (In.ofText (banner ct st ++ (comments.flatMap commentText ++ (sizeLine (nb * r) (mb * c) E ++ ls.flatMap (Line.text cd.print))))) ⟨h, empty bm⟩ = .ub := by
  have ht := readMatrix_text (r := r) (c := c) (getVal cd) conj ct st comments hcm (nb * r) (mb * c) E (ls.flatMap (Line.text cd.print))
  dsimp only at ht
  rw [ht]
  have R0 : RowsOK (List.replicate (nb * r) ([] : List (Nat × K))) (nb * r) [] := ⟨by simp, by simp [Row.Asc], by simp [firstAt]⟩
  refine afterHeader_ub h bm hbm ?_
  rw [Nat.mul_div_cancel _ hr]
  obtain ⟨s', rows, hl, -, hs⟩ := readLoop_spec (reads_getVal hcd) st conj (nb * r)
    (banner ct st ++ (comments.flatMap commentText ++ (sizeLine (nb * r) (mb * c) E ++ ls.flatMap (Line.text cd.print)))) ls [] _ _ (.inl rfl) R0 hlc hrow
  rw [List.nil_append] at hl
  obtain ⟨d, rfl⟩ : ∃ d, E = ls.length + (d + 1) := ⟨E - ls.length - 1, by omega⟩
  rw [readLoop_add, hl]
  exact readLoop_none _ _ _ _ _ _ (getNat_end _ s' hs)

/-- Complex matrices with more than one number cannot be read back: `(re,im)` is written, two numbers are expected; the stream fails at the
first entry and the row of the second one is uninitialised. -/
theorem C47_complex_counterexample (cd : Codec K) (hparen : ∀ t, cd.scan ('(' :: t) = none) (conj : K × K → K × K) (ct : CType) (hr : 0 < r)
    (A : SpMat (Fin r → Fin c → K × K)) (h2 : 2 ≤ countNonZeros A)
    (h : Heap (Fin r → Fin c → K × K)) (bm : BuildMode) (hbm : bm ≠ .implicit) :
    readMatrix r c (getComplex cd) conj (In.ofText (writeMatrix ct (printComplex cd.print) A)) ⟨h, empty bm⟩ = .ub := by
  rw [writeMatrix_eq]
  unfold fileText
  have hcm : ∀ x ∈ [" ISTL_STRUCT blocked ".toList ++ (dec r ++ ' ' :: dec c)], '\n' ∉ x := by
    intro x hx
    rw [List.mem_singleton.1 hx, List.mem_append, List.mem_append, List.mem_cons]
    rintro (h | h | h | h)
    · exact absurd h (by decide)
    · exact absurd ((dec_spec r).2.1 _ h) (by decide)
    · exact absurd h (by decide)
    · exact absurd ((dec_spec c).2.1 _ h) (by decide)
  have ht := readMatrix_text (r := r) (c := c) (getComplex cd) conj ct .general _ hcm (A.n * r) (A.m * c) (linesOf A).length
    ((linesOf A).flatMap (Line.text (printComplex cd.print)))
  dsimp only at ht
  rw [ht]
  refine afterHeader_ub h bm hbm ?_
  rw [countNonZeros_eq, ← linesOf_length] at h2
  rw [Nat.mul_div_cancel _ hr]
  generalize (banner ct .general ++ (List.flatMap commentText [" ISTL_STRUCT blocked ".toList ++ (dec r ++ ' ' :: dec c)] ++
    (sizeLine (A.n * r) (A.m * c) (linesOf A).length ++ (linesOf A).flatMap (Line.text (printComplex cd.print))))) = t
  obtain ⟨l, l', ls, hls⟩ : ∃ l l' ls, linesOf A = l :: l' :: ls := by
    match hL : linesOf A with
    | [] => rw [hL] at h2; simp at h2
    | [l] => rw [hL] at h2; simp at h2
    | l :: l' :: ls => exact ⟨l, l', ls, rfl⟩
  have hmem : l ∈ linesOf A := by rw [hls]; simp
  obtain ⟨I, hI, e, he, a, b, hl⟩ := (mem_linesOf A l).1 hmem
  have hli : l.i < A.n * r := by
    have : (I + 1) * r ≤ A.n * r := Nat.mul_le_mul_right r hI
    have := a.isLt
    rw [hl]; simp only
    rw [Nat.add_mul] at *
    omega
  rw [hls]
  set tail := (l' :: ls).flatMap (Line.text (printComplex cd.print)) with htail
  have htext : (l :: l' :: ls).flatMap (Line.text (printComplex cd.print)) =
      dec (l.i + 1) ++ ' ' :: (dec (l.j + 1) ++ ' ' :: '(' :: (cd.print l.v.1 ++ ',' :: (cd.print l.v.2 ++ ')' :: '\n' :: tail))) := by
    simp [Line.text, htail, printComplex, hl]
  obtain ⟨d, ds, hd, hdig⟩ := dec_cons (l.i + 1)
  have hsk := skipComments_start t [] d (ds ++ ' ' :: (dec (l.j + 1) ++ ' ' :: '(' :: (cd.print l.v.1 ++ ',' :: (cd.print l.v.2 ++ ')' :: '\n' :: tail))))
    (digit_ne hdig (by decide)) (digit_ne hdig (by decide)) (digit_ne hdig (by decide)) (by simp)
  rw [List.flatMap_nil, List.nil_append, ← List.cons_append, ← hd, ← htext] at hsk
  have g1 := getNat_dec t [] (l.i + 1) ' ' (dec (l.j + 1) ++ ' ' :: '(' :: (cd.print l.v.1 ++ ',' :: (cd.print l.v.2 ++ ')' :: '\n' :: tail))) (by simp) (by decide)
  have g2 := getNat_dec t [' '] (l.j + 1) ' ' ('(' :: (cd.print l.v.1 ++ ',' :: (cd.print l.v.2 ++ ')' :: '\n' :: tail))) (by decide) (by decide)
  simp only [List.nil_append, List.cons_append] at g1 g2
  rw [← htext] at g1
  have g3 : ∀ t', (getComplex cd (gs t (' ' :: '(' :: t'))).2.fail = true := by
    intro t'
    simp [getComplex, getVal, formatted, gs, isSpace, hparen]
  have hp : ∀ n, pred64 (n + 1) = n := fun n => by simp [pred64]
  rw [List.length_cons, List.length_cons]
  have h1 : rowsAdd (List.replicate (A.n * r) ([] : List (Nat × (K × K)))) l.i l.j
      ((getComplex cd (gs t (' ' :: '(' :: (cd.print l.v.1 ++ ',' :: (cd.print l.v.2 ++ ')' :: '\n' :: tail))))).1.getD 0) =
      .ok ((List.replicate (A.n * r) ([] : List (Nat × (K × K)))).set l.i (setAdd l.j
      ((getComplex cd (gs t (' ' :: '(' :: (cd.print l.v.1 ++ ',' :: (cd.print l.v.2 ++ ')' :: '\n' :: tail))))).1.getD 0) [])) := by
    unfold rowsAdd
    rw [show rd (List.replicate (A.n * r) ([] : List (Nat × (K × K)))) l.i = .ok [] by simp [rd, hli], Res.ok_bind]
    simp [wr, hli]
  rw [readLoop]
  simp only [hsk, g1, g2, hp, Option.getD_some, fixup, h1, Res.ok_bind, ite_self]
  exact readLoop_none _ _ _ _ _ _ (getNat_failed _ (g3 _))

/-- A symmetric matrix without stored diagonal: the reader reserves `2·entries − rows` blocks, one here, and throws. -/
theorem C47_symmetric_zero_diagonal_counterexample (cd : Codec K) (hcd : cd.Lossless) (conj : K → K) (ct : CType) (v w : K)
    (h : Heap (Fin 1 → Fin 1 → K)) (bm : BuildMode) (hbm : bm ≠ .implicit) :
    ∃ s, readMatrix 1 1 (getVal cd) conj (In.ofText (fileText ct .symmetric [] 3 3 cd.print [⟨[], 1, 0, v⟩, ⟨[], 2, 1, w⟩])) ⟨h, empty bm⟩ =
      .throw .bcrsMatrixError s :=
  C47_too_few_reserved_throws (r := 1) (c := 1) cd hcd conj ct .symmetric [] (by simp) (by omega) (by omega) 3 3 [⟨[], 1, 0, v⟩, ⟨[], 2, 1, w⟩] (by simp)
    (by simp [allEntries, Line.entries]) (by simp) (by simp [reserved]) (by simp [reserved, touched, allEntries, Line.entries, List.range, List.range.loop]) h bm hbm

end

/-! ### Instances -/

/-- Integers are a number format as required. -/
example : intCodec.Lossless := intCodec_lossless

/-- A full skew-symmetric `4 × 4` file with comments. -/
def demoLines : List (Line Int) := [⟨["first".toList], 1, 0, -7⟩, ⟨[], 2, 0, 4⟩, ⟨["a".toList, "b".toList], 2, 1, 5⟩, ⟨[], 3, 0, 6⟩, ⟨[], 3, 1, 1⟩, ⟨[], 3, 2, 2⟩]

example (h : Heap (Fin 1 → Fin 1 → Int)) :
    ∃ A s, readMatrix 1 1 (getVal intCodec) id (In.ofText (fileText .integer .skewSymmetric ["c".toList] 4 4 intCodec.print demoLines)) ⟨h, empty⟩ = .ok A s ∧
      s.o.ready = .built ∧ SameMat A (described 1 1 4 4 (allEntries .skewSymmetric id demoLines)) :=
  C47_read (r := 1) (c := 1) intCodec intCodec_lossless id .integer .skewSymmetric ["c".toList] (by decide) (by omega) (by omega) 4 4 demoLines (by decide)
    (by decide) (by decide) (.inr ⟨by omega, by decide +kernel⟩) h .unknown (by decide)

example : touched (allEntries .skewSymmetric id demoLines) 1 1 1 = {0, 2, 3} ∧ firstAt (allEntries .skewSymmetric id demoLines) 1 2 = some (-5) ∧
    firstAt (allEntries .skewSymmetric id demoLines) 2 1 = some 5 := by decide +kernel

/-- The same file read into `2 × 2` blocks: twice the entries divided by the block size is 3, but the matrix has 4 blocks. -/
theorem C47_skew_blocks_counterexample (h : Heap (Fin 2 → Fin 2 → Int)) (bm : BuildMode) (hbm : bm ≠ .implicit) :
    ∃ s, readMatrix 2 2 (getVal intCodec) id (In.ofText (fileText .integer .skewSymmetric [] 4 4 intCodec.print demoLines)) ⟨h, empty bm⟩ =
      .throw .bcrsMatrixError s :=
  C47_too_few_reserved_throws (r := 2) (c := 2) intCodec intCodec_lossless id .integer .skewSymmetric [] (by decide) (by omega) (by omega) 2 2 demoLines (by decide)
    (by decide) (by decide) (by decide) (by decide +kernel) h bm hbm

example : (fileText .integer .general [] 1 1 intCodec.print [⟨[], 0, 0, -12⟩]) =
    "%%MatrixMarket matrix coordinate integer general\n1 1 1\n1 1 -12\n".toList := by decide +kernel

end MM
end Istl
