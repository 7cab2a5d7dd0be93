import Verif.Lemmas.MMDefect3

/-!
# C78: Matrix Market files with defects

What the readers do with files that are not as the format demands: missing or incomplete banners, incomplete size lines, indices out of
range, missing numbers, files of the other format.
-/

namespace Istl
namespace MM
open Bcrs

section
variable {K : Type} [Zero K] [Neg K] {r c : Nat}

/-- A matrix file with any preamble is read as announced there: a missing or incomplete banner counts for what precedes the first word that
is not understood, the rest is the default. Compare C47_read. -/
theorem C78_read (cd : Codec K) (hcd : cd.Lossless) (conj : K → K) (P : Preamble) (hP : P.Ok) (hty : P.said.type = .coordinate)
    (hr : 0 < r) (hc : 0 < c) (nb mb : Nat) (ls : List (Line K))
    (hlc : ∀ l ∈ ls, ∀ x ∈ l.comments, '\n' ∉ x) (hrow : ∀ t ∈ allEntries P.said.structure_ conj ls, t.1 < nb * r)
    (hE : (P.said.structure_ = .symmetric ∨ P.said.structure_ = .hermitian) → nb * r ≤ 2 * ls.length)
    (hres : reserved P.said.structure_ r c (nb * r) ls.length = 0 ∨
      0 < nb ∧ ((List.range nb).map fun I => (touched (allEntries P.said.structure_ conj ls) r c I).card).sum ≤
        reserved P.said.structure_ r c (nb * r) ls.length)
    (h : Heap (Fin r → Fin c → K)) (bm : BuildMode) (hbm : bm ≠ .implicit) :
    ∃ A s, readMatrix r c (getVal cd) conj
        (In.ofText (P.text ++ (sizeLine (nb * r) (mb * c) ls.length ++ ls.flatMap (Line.text cd.print)))) ⟨h, empty bm⟩ = .ok A s ∧
      s.o.ready = .built ∧ SameMat A (described r c nb mb (allEntries P.said.structure_ conj ls)) := by
  rw [readMatrix_preamble (getVal cd) conj P hP]
  generalize P.said = S at hty hrow hE hres ⊢
  obtain ⟨ty, ct, st⟩ := S
  simp only at hty hrow hE hres
  subst hty
  exact (afterHeader_spec (reads_getVal hcd) conj ct st _ hr hc nb mb ls hlc hrow hE h bm hbm).1 hres

/-- Files announced as arrays are refused, whatever follows; the matrix has already been resized. -/
theorem C78_array_refused (cd : Codec K) (conj : K → K) (P : Preamble) (hP : P.Ok) (hty : P.said.type = .array) (N M E : Nat) (body : List Char)
    (h : Heap (Fin r → Fin c → K)) (bm : BuildMode) (hbm : bm ≠ .implicit) :
    ∃ s, readMatrix r c (getVal cd) conj (In.ofText (P.text ++ (sizeLine N M E ++ body))) ⟨h, empty bm⟩ = .throw .notImplemented s ∧ s.o.n = N / r := by
  rw [readMatrix_preamble (getVal cd) conj P hP]
  exact afterHeader_array _ _ _ hty _ _ _ _ h bm hbm

/-- A size line that ends after one or two numbers is a format error, for any matrix, which stays as it is. -/
theorem C78_short_size_line (cd : Codec K) (conj : K → K) (P : Preamble) (hP : P.Ok) (N M k : Nat) (body : List Char) (x : St (Fin r → Fin c → K)) :
    readMatrix r c (getVal cd) conj (In.ofText (P.text ++ (dec N ++ (List.replicate k ' ' ++ '\n' :: body)))) x = .throw .formatError x ∧
    readMatrix r c (getVal cd) conj (In.ofText (P.text ++ (dec N ++ (' ' :: (dec M ++ (List.replicate k ' ' ++ '\n' :: body)))))) x = .throw .formatError x :=
  ⟨readMatrix_short1 _ _ P hP N k body x, readMatrix_short2 _ _ P hP N M k body x⟩

/-- Whatever the file and the matrix: a format error leaves the matrix as it was. -/
theorem C78_format_error_unchanged (cd : Codec K) (conj : K → K) (file : In) (x x' : St (Fin r → Fin c → K))
    (h : readMatrix r c (getVal cd) conj file x = .throw .formatError x') : x' = x :=
  readMatrix_format _ _ file x x' h

/-- An entry with row index zero or beyond the number of rows, or, off the diagonal of a structured matrix, with such a column index: memory
outside the container of rows is accessed. (Sizes are 64 bit numbers.) -/
theorem C78_index_out_of_range_counterexample (cd : Codec K) (hcd : cd.Lossless) (conj : K → K) (P : Preamble) (hP : P.Ok)
    (hty : P.said.type = .coordinate) (hr : 0 < r) (nb mb : Nat) (hnb : nb * r < 2 ^ 64) (good : List (Line K))
    (hlc : ∀ l ∈ good, ∀ x ∈ l.comments, '\n' ∉ x) (hrow : ∀ t ∈ allEntries P.said.structure_ conj good, t.1 < nb * r)
    (bad : RawLine K) (hbc : ∀ x ∈ bad.comments, '\n' ∉ x)
    (hbad : bad.row = 0 ∨ nb * r < bad.row ∨ P.said.structure_ ≠ .general ∧ bad.row ≠ bad.col ∧ (bad.col = 0 ∨ nb * r < bad.col))
    (more : List Char) (E : Nat) (hE : good.length < E)
    (h : Heap (Fin r → Fin c → K)) (bm : BuildMode) (hbm : bm ≠ .implicit) :
    readMatrix r c (getVal cd) conj
      (In.ofText (P.text ++ (sizeLine (nb * r) (mb * c) E ++ (good.flatMap (Line.text cd.print) ++ (bad.text cd.print ++ more))))) ⟨h, empty bm⟩ = .ub := by
  rw [readMatrix_preamble (getVal cd) conj P hP]
  generalize P.text ++ (sizeLine (nb * r) (mb * c) E ++ (good.flatMap (Line.text cd.print) ++ (bad.text cd.print ++ more))) = t
  generalize P.said = S at hty hrow hbad ⊢
  obtain ⟨ty, ct, st⟩ := S
  simp only at hty hrow hbad
  subst hty
  refine afterHeader_ub h bm hbm ?_
  rw [Nat.mul_div_cancel _ hr]
  have R0 : RowsOK (List.replicate (nb * r) ([] : List (Nat × K))) (nb * r) [] := ⟨by simp, by simp [Row.Asc], by simp [firstAt]⟩
  obtain ⟨d, rfl⟩ : ∃ d, E = good.length + (d + 1) := ⟨E - good.length - 1, by omega⟩
  have := readLoop_prefix (reads_getVal hcd) st conj (nb * r) t (bad.text cd.print ++ more) (d + 1)
    (fun pre rows hpre hl => readLoop_bad (reads_getVal hcd) st conj (nb * r) hnb t bad hbc hbad d pre more hpre rows hl) good [] _ _ (.inl rfl) R0 hlc hrow
  exact this

/-- Column indices are not checked for general matrices: the matrix that is read has entries in columns it does not have. -/
theorem C78_column_counterexample (cd : Codec K) (hcd : cd.Lossless) (conj : K → K) (P : Preamble) (hP : P.Ok) (hty : P.said.type = .coordinate)
    (hst : P.said.structure_ = .general) (hr : 0 < r) (hc : 0 < c) (nb mb : Nat) (ls : List (Line K))
    (hlc : ∀ l ∈ ls, ∀ x ∈ l.comments, '\n' ∉ x) (hrow : ∀ l ∈ ls, l.i < nb * r)
    (hres : ((List.range nb).map fun I => (touched (allEntries .general conj ls) r c I).card).sum ≤ ls.length / (r * c))
    (l : Line K) (hl : l ∈ ls) (hj : mb * c ≤ l.j)
    (h : Heap (Fin r → Fin c → K)) (bm : BuildMode) (hbm : bm ≠ .implicit) :
    ∃ A s, readMatrix r c (getVal cd) conj
        (In.ofText (P.text ++ (sizeLine (nb * r) (mb * c) ls.length ++ ls.flatMap (Line.text cd.print)))) ⟨h, empty bm⟩ = .ok A s ∧
      A.m = mb ∧ ∃ I < A.n, ∃ e ∈ A.row I, A.m ≤ e.1 := by
  have hmem : (l.i, l.j, l.v) ∈ allEntries .general conj ls := List.mem_flatMap.2 ⟨l, hl, by simp [Line.entries]⟩
  have hI : l.i / r < nb := Nat.div_lt_of_lt_mul (by rw [Nat.mul_comm]; exact hrow l hl)
  have hrow' : ∀ t ∈ allEntries .general conj ls, t.1 < nb * r := by
    intro t ht
    obtain ⟨l', hl', ht'⟩ := List.mem_flatMap.1 ht
    have : t = (l'.i, l'.j, l'.v) := by
      unfold Line.entries at ht'
      split at ht' <;> simpa using ht'
    rw [this]; exact hrow l' hl'
  obtain ⟨A, s, e1, -, e2, e3, e4⟩ := C78_read cd hcd conj P hP hty hr hc nb mb ls hlc (by rw [hst]; exact hrow')
    (by rw [hst]; rintro (h | h) <;> cases h) (.inr ⟨Nat.lt_of_le_of_lt (Nat.zero_le _) hI, by rw [hst]; exact hres⟩) h bm hbm
  rw [hst] at e2 e3 e4
  refine ⟨A, s, e1, e3, l.i / r, by rw [e2]; exact hI, ?_⟩
  rw [e4 _ (by rw [e2]; exact hI)]
  refine ⟨(l.j / c, fun a b => (firstAt (allEntries .general conj ls) (l.i / r * r + a.val) (l.j / c * c + b.val)).getD 0), ?_, ?_⟩
  · unfold described
    refine List.mem_map.2 ⟨l.j / c, ?_, rfl⟩
    rw [Finset.mem_sort, touched, List.mem_toFinset, List.mem_map]
    exact ⟨_, List.mem_filter.2 ⟨hmem, by simp⟩, rfl⟩
  · rw [e3]
    exact (Nat.le_div_iff_mul_le hc).2 hj
end

section
variable {K : Type} [Zero K] {k : Nat}

/-- A vector file is read whatever the preamble, unless that is a complete banner for coordinates. -/
theorem C78_vector_read (cd : Codec K) (hcd : cd.Lossless) (hk : 0 < k) (fresh : Fin k → K) (P : Preamble) (hP : P.Ok)
    (hty : P.Complete → P.said.type = .array) (v : List (Fin k → K)) :
    readVector k fresh cd (In.ofText (P.text ++ (dec (v.length * k) ++ (' ' :: (dec 1 ++ '\n' ::
      (v.flatMap fun blk => (List.finRange k).flatMap fun b => cd.print (blk b) ++ ['\n'])))))) = .ok v := by
  classical
  rw [readVector_preamble fresh cd P hP, if_neg (by simp), if_neg (fun h => h.2 (hty h.1)), if_neg (by rw [Nat.mul_div_cancel _ hk]; simp),
    Nat.mul_div_cancel _ hk]
  exact readVectorLoop_blocks hcd hk fresh _ v

/-- Vector files that are format errors: a line of sizes with one number only, more or less than one column, coordinates, a number of rows
that is not a multiple of the block size. -/
theorem C78_vector_format_errors (cd : Codec K) (fresh : Fin k → K) (P : Preamble) (hP : P.Ok) (N M j : Nat) (body : List Char) :
    readVector k fresh cd (In.ofText (P.text ++ (dec N ++ (List.replicate j ' ' ++ '\n' :: body)))) = .throw .formatError ∧
    ((M ≠ 1 ∨ (P.Complete ∧ P.said.type = .coordinate) ∨ ¬ k ∣ N) →
      readVector k fresh cd (In.ofText (P.text ++ (dec N ++ (' ' :: (dec M ++ '\n' :: body))))) = .throw .formatError) := by
  classical
  refine ⟨readVector_short fresh cd P hP N j body, ?_⟩
  intro h
  rw [readVector_preamble fresh cd P hP]
  by_cases h1 : M ≠ 1
  · rw [if_pos h1]
  rw [if_neg h1]
  by_cases h2 : P.Complete ∧ P.said.type ≠ .array
  · rw [if_pos h2]
  rw [if_neg h2, if_pos]
  rcases h with h | ⟨h, h'⟩ | h
  · exact absurd h h1
  · exact absurd ⟨h, by rw [h']; decide⟩ h2
  · intro he
    exact h ⟨N / k, by rw [Nat.mul_comm]; exact he.symm⟩

/-- A vector file with fewer numbers than announced: an uninitialised number is stored. -/
theorem C78_vector_truncated_counterexample (cd : Codec K) (hcd : cd.Lossless) (hk : 0 < k) (fresh : Fin k → K) (P : Preamble) (hP : P.Ok)
    (hty : P.Complete → P.said.type = .array) (n : Nat) (vals : List K) (hv : vals.length < n * k) :
    readVector k fresh cd (In.ofText (P.text ++ (dec (n * k) ++ (' ' :: (dec 1 ++ '\n' :: (vals.flatMap fun x => cd.print x ++ ['\n'])))))) = .ub := by
  classical
  rw [readVector_preamble fresh cd P hP, if_neg (by simp), if_neg (fun h => h.2 (hty h.1)), if_neg (by rw [Nat.mul_div_cancel _ hk]; simp),
    Nat.mul_div_cancel _ hk]
  have := readVectorLoop_truncated (k := k) hcd (P.text ++ (dec (n * k) ++ (' ' :: (dec 1 ++ '\n' :: (vals.flatMap fun x => cd.print x ++ ['\n']))))) vals (n * k) 0 []
    (List.replicate n fresh) (.inl rfl) hv (by simp)
  rw [List.nil_append] at this
  rw [this]
  rfl
end

/-! ### Instances -/

/-- An unknown structure: the rest of the banner counts, the structure is the default. -/
def demoBanner : Preamble := .line ⟨"%%MatrixMarket".toList, [(0, "matrix".toList), (2, "ARRAY".toList), (0, "foo".toList), (0, "general".toList)], 1⟩ ["x".toList]

example : demoBanner.text = "%%MatrixMarket matrix   ARRAY foo general \n%x\n".toList := by decide +kernel
example : demoBanner.said = ⟨.array, .double, .general⟩ := by decide +kernel

/-- "Using default: %%MatrixMarket matrix coordinate real general", says the reader about this banner, and then refuses the array. -/
theorem C78_default_counterexample (conj : Int → Int) (h : Heap (Fin 1 → Fin 1 → Int)) :
    ∃ s, readMatrix 1 1 (getVal intCodec) conj (In.ofText (demoBanner.text ++ (sizeLine 2 2 1 ++ "1 1 5\n".toList))) ⟨h, empty⟩ = .throw .notImplemented s := by
  have hok : demoBanner.Ok := by
    refine ⟨⟨⟨by decide, by decide⟩, ?_⟩, by decide, by decide⟩
    intro e he
    simp only [List.mem_cons, List.not_mem_nil, or_false] at he
    rcases he with rfl | rfl | rfl | rfl <;> exact ⟨by decide, by decide⟩
  obtain ⟨s, hs, -⟩ := C78_array_refused (r := 1) (c := 1) intCodec conj demoBanner hok (by decide +kernel) 2 2 1 "1 1 5\n".toList h .unknown (by decide)
  exact ⟨s, hs⟩

/-- A file without any banner. -/
example (h : Heap (Fin 1 → Fin 1 → Int)) :
    ∃ A s, readMatrix 1 1 (getVal intCodec) id (In.ofText (Preamble.nothing.text ++ (sizeLine 2 2 2 ++
        ([⟨[], 0, 1, 7⟩, ⟨["c".toList], 1, 0, -3⟩] : List (Line Int)).flatMap (Line.text intCodec.print)))) ⟨h, empty⟩ = .ok A s ∧
      s.o.ready = .built ∧ SameMat A (described 1 1 2 2 (allEntries .general id [⟨[], 0, 1, 7⟩, ⟨["c".toList], 1, 0, -3⟩])) :=
  C78_read (r := 1) (c := 1) intCodec intCodec_lossless id .nothing trivial rfl (by omega) (by omega) 2 2 [⟨[], 0, 1, 7⟩, ⟨["c".toList], 1, 0, -3⟩]
    (by decide) (by decide) (by decide) (.inr ⟨by omega, by decide +kernel⟩) h .unknown (by decide)

/-- A row index zero, after a good line. -/
example (h : Heap (Fin 1 → Fin 1 → Int)) :
    readMatrix 1 1 (getVal intCodec) id (In.ofText ("2 2 2\n1 1 5\n0 1 3\n".toList)) ⟨h, empty⟩ = .ub := by
  have e : "2 2 2\n1 1 5\n0 1 3\n".toList = Preamble.nothing.text ++ (sizeLine (2 * 1) (2 * 1) 2 ++
      (([⟨[], 0, 0, 5⟩] : List (Line Int)).flatMap (Line.text intCodec.print) ++ ((⟨[], 0, 1, 3⟩ : RawLine Int).text intCodec.print ++ []))) := by decide +kernel
  rw [e]
  exact C78_index_out_of_range_counterexample (r := 1) (c := 1) intCodec intCodec_lossless id .nothing trivial rfl (by omega) 2 2 (by norm_num)
    [⟨[], 0, 0, 5⟩] (by decide) (by decide) ⟨[], 0, 1, 3⟩ (by decide) (.inl rfl) [] 2 (by decide) h .unknown (by decide)

/-- A vector of two blocks without banner. -/
example : readVector 2 (fun _ => 0) intCodec (In.ofText "4 1\n1\n2\n3\n-4\n".toList) = .ok [![1, 2], ![3, -4]] := by
  have e : "4 1\n1\n2\n3\n-4\n".toList = Preamble.nothing.text ++ (dec (([![1, 2], ![3, -4]] : List (Fin 2 → Int)).length * 2) ++ (' ' :: (dec 1 ++ '\n' ::
      (([![1, 2], ![3, -4]] : List (Fin 2 → Int)).flatMap fun blk => (List.finRange 2).flatMap fun b => intCodec.print (blk b) ++ ['\n'])))) := by decide +kernel
  rw [e]
  exact C78_vector_read (k := 2) intCodec intCodec_lossless (by omega) (fun _ => 0) .nothing trivial (by simp [Preamble.Complete]) [![1, 2], ![3, -4]]

end MM
end Istl
