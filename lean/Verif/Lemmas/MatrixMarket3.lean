import Verif.Lemmas.MatrixMarket2
import Verif.Props.C04

/-! Reading a whole coordinate file. -/

namespace Istl
namespace MM
open Bcrs MatMat
variable {K : Type} [Zero K] [Neg K] {r c : Nat}

/-- `lineFeed` before a number. -/
theorem lineFeed_dec (all : List Char) (n : Nat) (t : List Char) : lineFeed (gs all (dec n ++ t)) = (false, gs all (dec n ++ t)) := by
  obtain ⟨d, ds, hd, hdig⟩ := dec_cons n
  rw [hd]
  exact lineFeed_other all d (ds ++ t) (digit_ne hdig (by decide)) (digit_ne hdig (by decide))

theorem lineFeed_blank_dec (all : List Char) (n : Nat) (t : List Char) :
    lineFeed (gs all (' ' :: (dec n ++ t))) = (false, gs all (dec n ++ t)) := by
  obtain ⟨d, ds, hd, hdig⟩ := dec_cons n
  rw [hd]
  exact lineFeed_blank all d (ds ++ t) (digit_ne hdig (by decide)) (digit_ne hdig (by decide))

/-- What is done once the size line has been read. -/
def afterHeader (r c : Nat) (value : In → Option K × In) (conj : K → K) (h : Header) (N M E : Nat) (s : In) :
    BC (Fin r → Fin c → K) (SpMat (Fin r → Fin c → K)) := do
  setSize (N / r) (M / c) (calculateNNZ r c N M E h.structure_).2.2
  setBuildMode .rowWise
  if h.type = .array then Cmd.raise .notImplemented
  else readSparseEntries r c value conj h.structure_ E s

theorem readMatrix_text (value : In → Option K × In) (conj : K → K) (ct : CType) (st : Structure) (comments : List (List Char))
    (hcm : ∀ x ∈ comments, '\n' ∉ x) (N M E : Nat) (body : List Char) :
    let t := banner ct st ++ (comments.flatMap commentText ++ (sizeLine N M E ++ body))
    readMatrix r c value conj (In.ofText t) = afterHeader r c value conj ⟨.coordinate, ct, st⟩ N M E (gs t body) := by
  intro t
  have hne : comments.flatMap commentText ++ (sizeLine N M E ++ body) ≠ [] := by simp [sizeLine]
  have hb : readBanner (gs t t) = (true, ⟨.coordinate, ct, st⟩, gs t (comments.flatMap commentText ++ (sizeLine N M E ++ body))) := by
    have := readBanner_banner t _ hne .coordinate ct st
    rw [← banner_eq] at this
    exact this
  have hh : readHeader (In.ofText t) = (⟨.coordinate, ct, st⟩, gs t (comments.flatMap commentText ++ (sizeLine N M E ++ body))) := by
    unfold readHeader
    rw [show In.ofText t = gs t t from rfl, hb]; rfl
  have hsz : sizeLine N M E ++ body = dec N ++ (' ' :: (dec M ++ (' ' :: (dec E ++ '\n' :: body)))) := by simp [sizeLine]
  rw [hsz] at hh
  obtain ⟨d, ds, hd, hdig⟩ := dec_cons N
  have hsk : skipComments (gs t (comments.flatMap commentText ++ (dec N ++ (' ' :: (dec M ++ (' ' :: (dec E ++ '\n' :: body))))))) =
      gs t (dec N ++ (' ' :: (dec M ++ (' ' :: (dec E ++ '\n' :: body))))) := by
    rw [hd]
    exact skipComments_start t _ d _ (digit_ne hdig (by decide)) (digit_ne hdig (by decide)) (digit_ne hdig (by decide)) hcm
  have l1 := lineFeed_dec t N (' ' :: (dec M ++ (' ' :: (dec E ++ '\n' :: body))))
  have g1 := getNat_dec t [] N ' ' (dec M ++ (' ' :: (dec E ++ '\n' :: body))) (by simp) (by decide)
  have l2 := lineFeed_blank_dec t M (' ' :: (dec E ++ '\n' :: body))
  have g2 := getNat_dec t [] M ' ' (dec E ++ '\n' :: body) (by simp) (by decide)
  have l3 := lineFeed_blank_dec t E ('\n' :: body)
  have g3 := getNat_dec t [] E '\n' body (by simp) (by decide)
  have ig := ignoreLine_text t [] body (by simp)
  simp only [List.nil_append] at g1 g2 g3 ig
  unfold readMatrix afterHeader
  simp only [hh, hsk, l1, g1, l2, g2, l3, g3, ig]
  funext s
  simp [Cmd.bind_def, Cmd.lift, need, calculateNNZ]

/-- Sizing a default-constructed matrix. -/
theorem sized {γ : Type} (h : Heap γ) (bm : BuildMode) (hbm : bm ≠ .implicit) (n m nnz : Nat) :
    ∃ s1 s2, setSize n m nnz (⟨h, empty bm⟩ : St γ) = .ok () s1 ∧ setBuildMode .rowWise s1 = .ok () s2 ∧ s2.o.n = n := by
  by_cases h1 : n = 0 <;> by_cases h2 : nnz = 0 <;> cases bm <;>
    simp [setSize, deallocate, setBuildMode, allocate, setO, Cmd.bind_def, empty, allocateRows, allocateIdx, Mem.alloc, h1, h2,
        Nat.pos_of_ne_zero, Cmd.get] at hbm ⊢

/-- Reading is: collecting the entries, building the pattern, setting the values. -/
theorem afterHeader_eq {value : In → Option K × In} {conj : K → K} {ct : CType} {st : Structure} {N M E : Nat} {s s' : In}
    {rows : List (List (Nat × K))} (h : Heap (Fin r → Fin c → K)) (bm : BuildMode) (hbm : bm ≠ .implicit)
    (hl : readLoop value st conj E s (List.replicate (N / r * r) []) = .ok (s', rows)) :
    afterHeader r c value conj ⟨.coordinate, ct, st⟩ N M E s ⟨h, empty bm⟩ = (do
      setup ⟨N / r, M / c, (calculateNNZ r c N M E st).2.2, (List.range (N / r)).map (blockCols r c rows)⟩
      let x ← Cmd.get
      let v ← Cmd.lift (view x)
      Cmd.lift (setValues r c rows (zeroed v)) : BC (Fin r → Fin c → K) (SpMat (Fin r → Fin c → K))) ⟨h, empty bm⟩ := by
  obtain ⟨s1, s2, e1, e2, e3⟩ := sized h bm hbm (N / r) (M / c) (calculateNNZ r c N M E st).2.2
  have hl' : readLoop value st conj E s (List.replicate (s2.o.n * r) []) = .ok (s', rows) := by rw [e3]; exact hl
  unfold afterHeader readSparseEntries setup
  simp only [Cmd.bind_def, e1, e2, Cmd.get, hl', Cmd.lift, e3]
  simp only [reduceCtorEq, if_false, Cmd.bind_def, Cmd.get, hl, Cmd.lift, e3]
  cases hc : createbegin s2 with
  | ok it s3 => rfl
  | throw e s3 => rfl
  | ub => rfl

/-- If the entries cannot be read the whole call is undefined. -/
theorem afterHeader_ub {value : In → Option K × In} {conj : K → K} {ct : CType} {st : Structure} {N M E : Nat} {s : In}
    (h : Heap (Fin r → Fin c → K)) (bm : BuildMode) (hbm : bm ≠ .implicit)
    (hl : readLoop value st conj E s (List.replicate (N / r * r) []) = .ub) :
    afterHeader r c value conj ⟨.coordinate, ct, st⟩ N M E s ⟨h, empty bm⟩ = .ub := by
  obtain ⟨s1, s2, e1, e2, e3⟩ := sized h bm hbm (N / r) (M / c) (calculateNNZ r c N M E st).2.2
  unfold afterHeader readSparseEntries
  simp only [Cmd.bind_def, e1, e2, Cmd.get, Cmd.lift, e3]
  simp only [reduceCtorEq, if_false, Cmd.bind_def, Cmd.get, hl, Cmd.lift, e3]

theorem calculateNNZ_eq (st : Structure) (r c N M E : Nat) (hE : (st = .symmetric ∨ st = .hermitian) → N ≤ 2 * E) :
    (calculateNNZ r c N M E st).2.2 = reserved st r c N E := by
  unfold calculateNNZ reserved
  cases st <;> simp_all

omit [Neg K] in
theorem zeroed_row' (n m : Nat) (rows : List (Row (Fin r → Fin c → K))) (i : Nat) (hi : i < rows.length) :
    ((zeroed (n, m, rows)).row i) = (rows[i].map Prod.fst).map fun j => (j, (0 : Fin r → Fin c → K)) := by
  simp [zeroed, hi]

/-- Reading the entries of a coordinate file, for any reader of numbers. -/
theorem afterHeader_spec {value : In → Option K × In} {print : K → List Char} (hv : Reads value print) (conj : K → K) (ct : CType) (st : Structure)
    (text : List Char) (hr : 0 < r) (hc : 0 < c) (nb mb : Nat) (ls : List (Line K))
    (hlc : ∀ l ∈ ls, ∀ x ∈ l.comments, '\n' ∉ x) (hrow : ∀ t ∈ allEntries st conj ls, t.1 < nb * r)
    (hE : (st = .symmetric ∨ st = .hermitian) → nb * r ≤ 2 * ls.length)
    (h : Heap (Fin r → Fin c → K)) (bm : BuildMode) (hbm : bm ≠ .implicit) :
    let L := allEntries st conj ls
    let run := afterHeader r c value conj ⟨.coordinate, ct, st⟩ (nb * r) (mb * c) ls.length (gs text (ls.flatMap (Line.text print)))
    let S := ((List.range nb).map fun I => (touched L r c I).card).sum
    ((reserved st r c (nb * r) ls.length = 0 ∨ 0 < nb ∧ S ≤ reserved st r c (nb * r) ls.length) →
      ∃ A s, run ⟨h, empty bm⟩ = .ok A s ∧ s.o.ready = .built ∧ SameMat A (described r c nb mb L)) ∧
    ((0 < reserved st r c (nb * r) ls.length ∧ reserved st r c (nb * r) ls.length < S) →
      ∃ s, run ⟨h, empty bm⟩ = .throw .bcrsMatrixError s) := by
  intro L run S
  have R0 : RowsOK (List.replicate (nb * r) ([] : List (Nat × K))) (nb * r) [] := ⟨by simp, by simp [Row.Asc], by simp [firstAt]⟩
  obtain ⟨s', rows, hl, R, -⟩ := readLoop_spec hv st conj (nb * r) text ls [] _ _ (.inl rfl) R0 hlc hrow
  rw [List.nil_append] at R hl
  have d1 : nb * r / r = nb := Nat.mul_div_cancel _ hr
  have d2 : mb * c / c = mb := Nat.mul_div_cancel _ hc
  have hl2 : readLoop value st conj ls.length (gs text (ls.flatMap (Line.text print))) (List.replicate (nb * r / r * r) []) = .ok (s', rows) := by
    rw [d1]; exact hl
  have ha := afterHeader_eq (c := c) (ct := ct) (M := mb * c) h bm hbm hl2
  rw [calculateNNZ_eq st r c _ _ _ hE, d1, d2] at ha
  have hS : (((List.range nb).map (blockCols r c rows)).map fun cols => cols.toFinset.card).sum = S := by
    rw [List.map_map]
    refine congrArg List.sum (List.map_congr_left fun I _ => ?_)
    simp only [Function.comp]
    rw [blockCols_toFinset R hrow hr]
  set p : Plan := ⟨nb, mb, reserved st r c (nb * r) ls.length, (List.range nb).map (blockCols r c rows)⟩ with hp
  have hse := setup_eq p h bm hbm (empty bm)
  constructor
  · intro hsuf
    obtain ⟨s, h1, h2, ⟨rws, h3, h4, h5⟩, -⟩ := C04_rowwise_build_exact h (empty bm) nb mb (reserved st r c (nb * r) ls.length) .rowWise (.inl rfl)
      ((List.range nb).map (blockCols r c rows)) (by simp) (by rw [hS]; exact hsuf)
    have hz : ∀ I < nb, (zeroed (nb, mb, rws)).row I = (touched L r c I).sort.map fun J => (J, 0) := by
      intro I hI
      rw [zeroed_row' _ _ _ I (by omega), h5 I (by omega) (by simp; exact hI), List.map_map, List.map_map]
      simp only [List.getElem_map, List.getElem_range]
      rw [blockCols_toFinset R hrow hr]
      rfl
    obtain ⟨A, e1, e2, e3, e4⟩ := setValues_spec (rows := rows) (zeroed (nb, mb, rws)) (described r c nb mb L).row (by
      intro I hI
      rw [hz I hI]
      exact setRowValues_spec R hrow hr hc I)
    refine ⟨A, s, ?_, h2, e2, e3, fun I hI => e4 I (by rw [e2] at hI; exact hI)⟩
    refine ha.trans ?_
    rw [Cmd.bind_ok (hse.trans h1)]
    simp only [Cmd.bind_def, Cmd.get, Cmd.lift, h3, e1]
  · rintro ⟨h1, h2⟩
    obtain ⟨s, hs⟩ := C04_rowwise_too_small_throws h (empty bm) nb mb (reserved st r c (nb * r) ls.length) .rowWise (.inl rfl)
      ((List.range nb).map (blockCols r c rows)) (by simp) h1 (by rw [hS]; exact h2)
    refine ⟨s, ha.trans ?_⟩
    rw [Cmd.bind_throw (hse.trans hs)]

/-- Reading a coordinate file, for any reader of numbers. -/
theorem read_spec {value : In → Option K × In} {print : K → List Char} (hv : Reads value print) (conj : K → K) (ct : CType) (st : Structure)
    (comments : List (List Char)) (hcm : ∀ x ∈ comments, '\n' ∉ x) (hr : 0 < r) (hc : 0 < c) (nb mb : Nat) (ls : List (Line K))
    (hlc : ∀ l ∈ ls, ∀ x ∈ l.comments, '\n' ∉ x) (hrow : ∀ t ∈ allEntries st conj ls, t.1 < nb * r)
    (hE : (st = .symmetric ∨ st = .hermitian) → nb * r ≤ 2 * ls.length)
    (h : Heap (Fin r → Fin c → K)) (bm : BuildMode) (hbm : bm ≠ .implicit) :
    let L := allEntries st conj ls
    let text := fileText ct st comments (nb * r) (mb * c) print ls
    let S := ((List.range nb).map fun I => (touched L r c I).card).sum
    ((reserved st r c (nb * r) ls.length = 0 ∨ 0 < nb ∧ S ≤ reserved st r c (nb * r) ls.length) →
      ∃ A s, readMatrix r c value conj (In.ofText text) ⟨h, empty bm⟩ = .ok A s ∧ s.o.ready = .built ∧ SameMat A (described r c nb mb L)) ∧
    ((0 < reserved st r c (nb * r) ls.length ∧ reserved st r c (nb * r) ls.length < S) →
      ∃ s, readMatrix r c value conj (In.ofText text) ⟨h, empty bm⟩ = .throw .bcrsMatrixError s) := by
  intro L text S
  have ht := readMatrix_text (r := r) (c := c) value conj ct st comments hcm (nb * r) (mb * c) ls.length (ls.flatMap (Line.text print))
  dsimp only at ht
  have ht' : readMatrix r c value conj (In.ofText text) = _ := ht
  rw [ht']
  exact afterHeader_spec hv conj ct st text hr hc nb mb ls hlc hrow hE h bm hbm

/-! ### What is written -/

/-- The lines written for a matrix. -/
def linesOf (A : SpMat (Fin r → Fin c → K)) : List (Line K) :=
  (List.range A.n).flatMap fun I => (A.row I).flatMap fun e => (List.finRange r).flatMap fun a => (List.finRange c).map fun b =>
    ⟨[], I * r + a.val, e.1 * c + b.val, e.2 a b⟩

omit [Zero K] [Neg K] in
theorem linesOf_length (A : SpMat (Fin r → Fin c → K)) :
    (linesOf A).length = ((List.range A.n).map fun I => (A.row I).length).sum * (r * c) := by
  unfold linesOf
  rw [List.length_flatMap, ← List.sum_map_mul_right]
  congr 1
  apply List.map_congr_left
  intro I _
  rw [List.length_flatMap]
  simp [List.length_flatMap]

omit [Zero K] [Neg K] in
theorem countNonZeros_eq (A : SpMat (Fin r → Fin c → K)) :
    countNonZeros A = ((List.range A.n).map fun I => (A.row I).length).sum * (r * c) := by
  have h1 : ∀ (l : Row (Fin r → Fin c → K)) (s : Nat), l.foldl (fun s _ => s + r * c) s = s + l.length * (r * c) := by
    intro l
    induction l with
    | nil => simp
    | cons a l ih => intro s; rw [List.foldl_cons, ih, List.length_cons]; ring
  have h2 : ∀ (l : List Nat) (s : Nat), l.foldl (fun s i => (A.row i).foldl (fun s _ => s + r * c) s) s =
      s + (l.map fun I => (A.row I).length).sum * (r * c) := by
    intro l
    induction l with
    | nil => simp
    | cons a l ih => intro s; rw [List.foldl_cons, h1, ih, List.map_cons, List.sum_cons]; ring
  unfold countNonZeros
  rw [h2]; simp

omit [Zero K] [Neg K] in
theorem writeMatrix_eq (ct : CType) (print : K → List Char) (A : SpMat (Fin r → Fin c → K)) :
    writeMatrix ct print A =
      fileText ct .general [" ISTL_STRUCT blocked ".toList ++ (dec r ++ ' ' :: dec c)] (A.n * r) (A.m * c) print (linesOf A) := by
  have hl : (linesOf A).flatMap (Line.text print) =
      (List.range A.n).flatMap fun i => (A.row i).flatMap fun e => printEntry print e.2 (i * r + 1) (e.1 * c + 1) := by
    unfold linesOf
    rw [List.flatMap_assoc]
    congr 1; funext I
    rw [List.flatMap_assoc]
    congr 1; funext e
    unfold printEntry
    rw [List.flatMap_assoc]
    congr 1; funext a
    rw [List.flatMap_map]
    congr 1; funext b
    simp [Line.text, printTriple, Nat.add_right_comm]
  unfold writeMatrix fileText
  rw [hl, countNonZeros_eq, linesOf_length]
  have e1 : " general\n".toList = ' ' :: ("general".toList ++ ['\n']) := by decide
  have e2 : "% ISTL_STRUCT blocked ".toList = '%' :: " ISTL_STRUCT blocked ".toList := by decide
  rw [e1, e2]
  unfold banner sizeLine Structure.name
  generalize "%%MatrixMarket matrix coordinate ".toList = b0
  generalize " ISTL_STRUCT blocked ".toList = b1
  generalize "general".toList = b2
  simp only [commentText, List.flatMap_cons, List.flatMap_nil, List.append_nil,
    List.append_assoc, List.cons_append, List.nil_append]

omit [Zero K] [Neg K] in
theorem mem_linesOf (A : SpMat (Fin r → Fin c → K)) (l : Line K) :
    l ∈ linesOf A ↔ ∃ I < A.n, ∃ e ∈ A.row I, ∃ (a : Fin r) (b : Fin c), l = ⟨[], I * r + a.val, e.1 * c + b.val, e.2 a b⟩ := by
  unfold linesOf
  simp only [List.mem_flatMap, List.mem_range, List.mem_map, List.mem_finRange, true_and]
  constructor
  · rintro ⟨I, hI, e, he, a, b, rfl⟩; exact ⟨I, hI, e, he, a, b, rfl⟩
  · rintro ⟨I, hI, e, he, a, b, rfl⟩; exact ⟨I, hI, e, he, a, b, rfl⟩

omit [Zero K] in
theorem mem_allEntries_general (A : SpMat (Fin r → Fin c → K)) (conj : K → K) (t : Nat × Nat × K) :
    t ∈ allEntries .general conj (linesOf A) ↔
      ∃ I < A.n, ∃ e ∈ A.row I, ∃ (a : Fin r) (b : Fin c), t = (I * r + a.val, e.1 * c + b.val, e.2 a b) := by
  unfold allEntries
  rw [List.mem_flatMap]
  constructor
  · rintro ⟨l, hl, ht⟩
    obtain ⟨I, hI, e, he, a, b, rfl⟩ := (mem_linesOf A l).1 hl
    exact ⟨I, hI, e, he, a, b, by simpa [Line.entries] using ht⟩
  · rintro ⟨I, hI, e, he, a, b, rfl⟩
    exact ⟨_, (mem_linesOf A _).2 ⟨I, hI, e, he, a, b, rfl⟩, by simp [Line.entries]⟩

theorem split_eq {r I I' a a' : Nat} (ha : a < r) (ha' : a' < r) (h : I * r + a = I' * r + a') : I = I' ∧ a = a' := by
  have hr : 0 < r := by omega
  have h1 : (I * r + a) / r = I := by rw [Nat.mul_comm, Nat.mul_add_div hr, Nat.div_eq_of_lt ha]; rfl
  have h2 : (I' * r + a') / r = I' := by rw [Nat.mul_comm, Nat.mul_add_div hr, Nat.div_eq_of_lt ha']; rfl
  have : I = I' := by rw [← h1, ← h2, h]
  subst this
  exact ⟨rfl, by omega⟩

/-- The file written for a matrix describes the matrix. -/
theorem described_linesOf (A : SpMat (Fin r → Fin c → K)) (hA : A.WF) (hr : 0 < r) (hc : 0 < c) (conj : K → K) (I : Nat) (hI : I < A.n) :
    (touched (allEntries .general conj (linesOf A)) r c I).sort = (A.row I).map Prod.fst ∧
    (described r c A.n A.m (allEntries .general conj (linesOf A))).row I = A.row I := by
  have hm := mem_allEntries_general A conj
  have h1 : (touched (allEntries .general conj (linesOf A)) r c I).sort = (A.row I).map Prod.fst := by
    symm
    apply asc_eq_sort _ _ (hA I hI).1
    intro J
    unfold touched
    simp only [List.mem_toFinset, List.mem_map, List.mem_filter, decide_eq_true_eq, hm]
    constructor
    · rintro ⟨e, he, rfl⟩
      refine ⟨_, ⟨⟨I, hI, e, he, ⟨0, hr⟩, ⟨0, hc⟩, rfl⟩, ?_⟩, ?_⟩
      · simp only [Nat.add_zero]; exact Nat.mul_div_cancel _ hr
      · simp only [Nat.add_zero]; exact Nat.mul_div_cancel _ hc
    · rintro ⟨t, ⟨⟨I', hI', e, he, a, b, rfl⟩, hd⟩, rfl⟩
      have : I' = I := by
        rw [← hd]; simp only; rw [Nat.mul_comm, Nat.mul_add_div hr, Nat.div_eq_of_lt a.isLt]; rfl
      subst this
      refine ⟨e, he, ?_⟩
      simp only; rw [Nat.mul_comm, Nat.mul_add_div hc, Nat.div_eq_of_lt b.isLt]; rfl
  refine ⟨h1, ?_⟩
  simp only [described]
  rw [h1, List.map_map]
  refine (List.map_congr_left ?_).trans (List.map_id _)
  intro e he
  simp only [Function.comp, id]
  refine Prod.ext rfl ?_
  funext a b
  have hmem : (I * r + a.val, e.1 * c + b.val, e.2 a b) ∈ allEntries .general conj (linesOf A) := (hm _).2 ⟨I, hI, e, he, a, b, rfl⟩
  obtain ⟨v, hv⟩ := (firstAt_isSome _ (I * r + a.val) (e.1 * c + b.val)).2 ⟨_, hmem, rfl, rfl⟩
  simp only [hv, Option.getD_some]
  unfold firstAt at hv
  obtain ⟨t, ht, rfl⟩ := Option.map_eq_some_iff.1 hv
  have hp := List.find?_some ht
  simp only [decide_eq_true_eq] at hp
  obtain ⟨I', hI', e', he', a', b', rfl⟩ := (hm t).1 (List.mem_of_find?_eq_some ht)
  obtain ⟨rfl, ea⟩ := split_eq a'.isLt a.isLt hp.1
  obtain ⟨ej, eb⟩ := split_eq b'.isLt b.isLt hp.2
  obtain rfl := Fin.ext ea
  obtain rfl := Fin.ext eb
  have : e' = e := by
    obtain ⟨j', x'⟩ := e'
    obtain ⟨j, x⟩ := e
    simp only at ej
    subst ej
    rw [(hA I' hI).1.unique he' he]
  rw [this]

end MM
end Istl
