import Verif.Lemmas.SeqMM
import Verif.Props.C47
import Verif.Props.C78

/-!
# C101: histories of storing and loading MatrixMarket files

Matrices and vectors are stored under names any number of times; loading gives what was stored last in the file the name stands for.
-/

namespace Istl
namespace MM
open Bcrs

variable {K : Type} [Zero K] [Neg K]

omit [Zero K] [Neg K] in
/-- Every name stands for exactly one file. -/
theorem C101_file (f : List Char) : ∃! n, Goes f n :=
  ⟨storeName f, goes_self f, fun _ h => goes_iff.1 h⟩

/-- After any history of stores: if the file the name stands for was last written by storing a matrix with enough digits, loading gives this
matrix. -/
theorem C101_load_matrix (cd : Codec K) (print : Nat → K → List Char) (conj : K → K) (canOpen : List Char → Bool) (hist : List (Store K)) (fs : FS)
    (hopen : ∀ s ∈ hist, ∀ n, Goes s.name n → canOpen n = true) (n : List Char) (s : Store K) (hs : Latest hist n s)
    (ct : CType) (r c : Nat) (hr : 0 < r) (hc : 0 < c) (A : SpMat (Fin r → Fin c → K)) (hA : A.WF) (hcont : s.content = .mat ct r c A)
    (d : Nat) (hd : Asks s.prec d) (hl : Codec.Lossless ⟨print d, cd.scan⟩) (name : List Char) (hn : Goes name n)
    (h : Heap (Fin r → Fin c → K)) (bm : BuildMode) (hbm : bm ≠ .implicit) :
    ∃ fs', runStores canOpen print hist fs = .ok fs' ∧ ∃ A' st, loadMatrixSeq r c (getVal cd) conj fs' name ⟨h, empty bm⟩ = .ok A' st ∧
      st.o.ready = .built ∧ SameMat A' A := by
  obtain ⟨fs', h1, h2, -⟩ := run_spec print canOpen hist fs fun s hs => hopen s hs _ (goes_self _)
  refine ⟨fs', h1, ?_⟩
  have ht := openSeq_goes hn (h2 n s hs)
  rw [asks_digits hd, hcont] at ht
  obtain ⟨A', st, e1, e2, e3⟩ := C47_round_trip ⟨print d, cd.scan⟩ hl conj ct hr hc A hA h bm hbm
  refine ⟨A', st, ?_, e2, e3⟩
  unfold loadMatrixSeq
  rw [ht, Cmd.bind_ok (Cmd.lift_ok _ _)]
  exact e1

omit [Neg K] in
/-- The same for vectors. -/
theorem C101_load_vector (cd : Codec K) (print : Nat → K → List Char) (canOpen : List Char → Bool) (hist : List (Store K)) (fs : FS)
    (hopen : ∀ s ∈ hist, ∀ n, Goes s.name n → canOpen n = true) (n : List Char) (s : Store K) (hs : Latest hist n s)
    (ct : CType) (k : Nat) (hk : 0 < k) (v : List (Fin k → K)) (hcont : s.content = .vec ct k v) (fresh : Fin k → K)
    (d : Nat) (hd : Asks s.prec d) (hl : Codec.Lossless ⟨print d, cd.scan⟩) (name : List Char) (hn : Goes name n) :
    ∃ fs', runStores canOpen print hist fs = .ok fs' ∧ loadVectorSeq k fresh cd fs' name = .ok v := by
  obtain ⟨fs', h1, h2, -⟩ := run_spec print canOpen hist fs fun s hs => hopen s hs _ (goes_self _)
  refine ⟨fs', h1, ?_⟩
  have ht := openSeq_goes hn (h2 n s hs)
  rw [asks_digits hd, hcont] at ht
  unfold loadVectorSeq
  rw [ht, Res.ok_bind]
  rw [readVector_scan (cd := cd) (cd' := ⟨print d, cd.scan⟩) fresh rfl]
  exact C47_vector_round_trip ⟨print d, cd.scan⟩ hl hk fresh ct v

omit [Neg K] in
/-- A name without extension for which no `.mm` file exists is loaded from the file with `.mtx`: what was last stored there. -/
theorem C101_load_mtx (cd : Codec K) (print : Nat → K → List Char) (canOpen : List Char → Bool) (hist : List (Store K)) (fs : FS)
    (hopen : ∀ s ∈ hist, ∀ n, Goes s.name n → canOpen n = true) (name : List Char)
    (hplain : ∀ p, name ≠ p ++ ".mm".toList ∧ name ≠ p ++ ".mtx".toList) (hno : fs (name ++ ".mm".toList) = none)
    (hnever : ∀ s ∈ hist, ¬Goes s.name (name ++ ".mm".toList)) (s : Store K) (hs : Latest hist (name ++ ".mtx".toList) s)
    (ct : CType) (k : Nat) (hk : 0 < k) (v : List (Fin k → K)) (hcont : s.content = .vec ct k v) (fresh : Fin k → K)
    (d : Nat) (hd : Asks s.prec d) (hl : Codec.Lossless ⟨print d, cd.scan⟩) :
    ∃ fs', runStores canOpen print hist fs = .ok fs' ∧ loadVectorSeq k fresh cd fs' name = .ok v := by
  obtain ⟨fs', h1, h2, h3⟩ := run_spec print canOpen hist fs fun s hs => hopen s hs _ (goes_self _)
  refine ⟨fs', h1, ?_⟩
  have ht := openSeq_plain hplain ((h3 _ hnever).trans hno)
  rw [openFile, h2 _ s hs] at ht
  rw [asks_digits hd, hcont] at ht
  unfold loadVectorSeq
  rw [ht, Res.ok_bind]
  rw [readVector_scan (cd := cd) (cd' := ⟨print d, cd.scan⟩) fresh rfl]
  exact C47_vector_round_trip ⟨print d, cd.scan⟩ hl hk fresh ct v

omit [Neg K] in
/-- A vector stored as `name.mtx` is not what `name` loads if there is an older `name.mm`: here the older vector is loaded, whatever the names
and vectors. -/
theorem C101_shadow_counterexample (cd : Codec K) (print : Nat → K → List Char) (canOpen : List Char → Bool) (hopen : ∀ n, canOpen n = true) (fs : FS)
    (name : List Char) (hplain : ∀ p, name ≠ p ++ ".mm".toList ∧ name ≠ p ++ ".mtx".toList) (ct : CType) (k : Nat) (hk : 0 < k)
    (v w : List (Fin k → K)) (prec : Int) (fresh : Fin k → K) (d : Nat) (hd : Asks prec d) (hl : Codec.Lossless ⟨print d, cd.scan⟩) :
    ∃ fs', runStores canOpen print [⟨name, prec, .vec ct k v⟩, ⟨name ++ ".mtx".toList, prec, .vec ct k w⟩] fs = .ok fs' ∧
      loadVectorSeq k fresh cd fs' name = .ok v := by
  refine C101_load_vector cd print canOpen _ fs (fun _ _ _ _ => hopen _) (name ++ ".mm".toList) ⟨name, prec, .vec ct k v⟩
    ⟨[], [_], rfl, .plain _ hplain, ?_⟩ ct k hk v rfl fresh d hd hl name (.plain _ hplain)
  intro x hx hg
  rw [List.mem_singleton.1 hx] at hg
  have h1 := goes_iff.1 hg
  have h2 := goes_iff.1 (Goes.mtx name)
  rw [← h2] at h1
  have := List.append_cancel_left h1
  exact absurd this (by decide)

omit [Zero K] [Neg K] in
/-- Files no stored name stands for stay as they were. -/
theorem C101_other_files (print : Nat → K → List Char) (canOpen : List Char → Bool) (hist : List (Store K)) (fs fs' : FS)
    (hrun : runStores canOpen print hist fs = .ok fs') (hopen : ∀ s ∈ hist, ∀ n, Goes s.name n → canOpen n = true)
    (n : List Char) (hn : ∀ s ∈ hist, ¬Goes s.name n) : fs' n = fs n := by
  obtain ⟨fs'', h1, -, h3⟩ := run_spec print canOpen hist fs fun s hs => hopen s hs _ (goes_self _)
  rw [h1] at hrun
  cases hrun
  exact h3 n hn

omit [Zero K] [Neg K] in
/-- A file that cannot be opened for writing is an `IOError`. -/
theorem C101_store_throws (canOpen : List Char → Bool) (name n : List Char) (hn : Goes name n) (ho : canOpen n = false) (prec : Int)
    (text : Nat → List Char) (fs : FS) : storeSeq canOpen name prec text fs = .throw .ioError := by
  unfold storeSeq writeFile
  rw [goes_storeName hn]
  simp [ho]

/-- A missing file is an `IOError`, for matrices and vectors; the matrix is not touched. A name without extension needs both files to be missing. -/
theorem C101_missing_throws (cd : Codec K) (conj : K → K) (r c k : Nat) (fresh : Fin k → K) (fs : FS) (name n : List Char) (hn : Goes name n)
    (hm : fs n = none) (hm' : n = name ++ ".mm".toList → fs (name ++ ".mtx".toList) = none) (x : St (Fin r → Fin c → K)) :
    loadMatrixSeq r c (getVal cd) conj fs name x = .throw .ioError x ∧ loadVectorSeq k fresh cd fs name = .throw .ioError := by
  have ho : openSeq fs name = .throw .ioError := by
    cases hn with
    | mm p => simp only [openSeq, split_mm, openFile, hm, ne_eq, show ¬(".mm".toList = []) from by decide, not_false_eq_true, if_true]
    | mtx p => simp only [openSeq, split_mtx, openFile, hm, ne_eq, show ¬(".mtx".toList = []) from by decide, not_false_eq_true, if_true]
    | plain _ h => rw [openSeq_plain h hm, openFile, hm' rfl]
  unfold loadMatrixSeq loadVectorSeq
  rw [ho]
  exact ⟨rfl, rfl⟩

/-- A vector loaded as a matrix and a matrix loaded as a vector are format errors, whatever the block sizes and precisions; the matrix is not touched. -/
theorem C101_wrong_kind_throws (cd : Codec K) (print : Nat → K → List Char) (conj : K → K) (canOpen : List Char → Bool) (hist : List (Store K)) (fs : FS)
    (hopen : ∀ s ∈ hist, ∀ n, Goes s.name n → canOpen n = true) (n : List Char) (s : Store K) (hs : Latest hist n s)
    (name : List Char) (hn : Goes name n) :
    ∃ fs', runStores canOpen print hist fs = .ok fs' ∧
      (∀ ct k v, s.content = .vec ct k v → ∀ (r c : Nat) (x : St (Fin r → Fin c → K)),
        loadMatrixSeq r c (getVal cd) conj fs' name x = .throw .formatError x) ∧
      (∀ ct r c A, s.content = .mat ct r c A → ∀ (k : Nat) (fresh : Fin k → K), loadVectorSeq k fresh cd fs' name = .throw .formatError) := by
  obtain ⟨fs', h1, h2, -⟩ := run_spec print canOpen hist fs fun s hs => hopen s hs _ (goes_self _)
  have ht := openSeq_goes hn (h2 n s hs)
  refine ⟨fs', h1, ?_, ?_⟩
  · intro ct k v hv r c x
    rw [hv] at ht
    obtain ⟨body, hb⟩ := writeVector_pre ct (print (digits s.prec)) v
    unfold loadMatrixSeq
    rw [ht, Cmd.bind_ok (Cmd.lift_ok _ _)]
    change readMatrix r c (getVal cd) conj (In.ofText (writeVector ct _ v)) x = _
    rw [hb]
    refine (C78_short_size_line cd conj _ (plainPre_ok _ _ _ ?_) _ _ 0 body x).2
    rw [List.mem_append, List.mem_append]
    rintro (h | h | h)
    · exact absurd h (by decide)
    · exact newline_dec _ h
    · exact absurd h (by decide)
  · intro ct r c A hA k fresh
    rw [hA] at ht
    obtain ⟨body, hb⟩ := writeMatrix_pre ct (print (digits s.prec)) A
    unfold loadVectorSeq
    rw [ht, Res.ok_bind]
    change readVector k fresh cd (In.ofText (writeMatrix ct _ A)) = _
    rw [hb]
    refine readVector_coordinate fresh cd ct _ ?_ _ _ _ body
    rw [List.mem_append, List.mem_append, List.mem_cons]
    rintro (h | h | h | h)
    · exact absurd h (by decide)
    · exact newline_dec _ h
    · exact absurd h (by decide)
    · exact newline_dec _ h

omit [Neg K] in
/-- Without a precision argument (`-1`) 6 digits are written: if two values look the same with 6 digits, loading cannot tell them apart, whatever
the vector and the name. -/
theorem C101_default_precision_counterexample (cd : Codec K) (print : Nat → K → List Char) (canOpen : List Char → Bool) (hopen : ∀ n, canOpen n = true)
    (fs : FS) (name : List Char) (ct : CType) (x y : K) (hxy : x ≠ y) (hsame : print 6 x = print 6 y) (fresh : Fin 1 → K) :
    ∃ z ∈ [x, y], ∃ fs', runStores canOpen print [⟨name, -1, .vec ct 1 [fun _ => z]⟩] fs = .ok fs' ∧
      loadVectorSeq 1 fresh cd fs' name ≠ .ok [fun _ => z] := by
  have key : ∀ z, ∃ fs', runStores canOpen print [⟨name, -1, .vec ct 1 [fun _ => z]⟩] fs = .ok fs' ∧
      loadVectorSeq 1 fresh cd fs' name = readVector 1 fresh cd (In.ofText (writeVector (k := 1) ct (print 6) [fun _ => z])) := by
    intro z
    obtain ⟨fs', h1, h2, -⟩ := run_spec print canOpen [⟨name, -1, .vec ct 1 [fun _ => z]⟩] fs fun s _ => hopen _
    refine ⟨fs', h1, ?_⟩
    have ht := openSeq_goes (goes_self name) (h2 _ ⟨name, -1, .vec ct 1 [fun _ => z]⟩ ⟨[], [], rfl, goes_self name, by simp⟩)
    rw [asks_digits (d := 6) (Or.inr ⟨by change (-1 : Int) ≤ 0; decide, rfl⟩)] at ht
    unfold loadVectorSeq
    rw [ht, Res.ok_bind]
    rfl
  have htext : writeVector (k := 1) ct (print 6) [fun _ => x] = writeVector (k := 1) ct (print 6) [fun _ => y] := by
    unfold writeVector
    simp [hsame]
  obtain ⟨fx, hx1, hx2⟩ := key x
  obtain ⟨fy, hy1, hy2⟩ := key y
  by_cases h : loadVectorSeq 1 fresh cd fx name = .ok [fun _ => x]
  · refine ⟨y, by simp, fy, hy1, ?_⟩
    rw [hy2, ← htext, ← hx2, h]
    intro e
    injection e with e
    injection e with e
    exact hxy (congrFun e 0)
  · exact ⟨x, by simp, fx, hx1, h⟩

/-! Concrete histories. -/

/-- Integers printed in full, except that 6 digits means divided by ten (a lossy printer for the default precision). -/
def demoPrint (p : Nat) (x : Int) : List Char := if p = 6 then intCodec.print (x / 10) else intCodec.print x

example : Codec.Lossless (⟨demoPrint 16, intCodec.scan⟩ : Codec Int) := by
  have : demoPrint 16 = intCodec.print := by funext x; simp [demoPrint]
  rw [this]; exact intCodec_lossless
example : demoPrint 6 11 = demoPrint 6 12 := rfl
example : Asks 16 16 ∧ Asks (-1) 6 := ⟨Or.inl ⟨by decide, rfl⟩, Or.inr ⟨by decide, rfl⟩⟩

/-- `v` stored as `a`, a matrix as `a.mtx`, `w` as `a.mm`. -/
def demoHist (A : SpMat (Fin 1 → Fin 1 → Int)) : List (Store Int) :=
  [⟨"a".toList, 16, .vec .integer 2 [![1, 2]]⟩, ⟨"a.mtx".toList, 16, .mat .integer 1 1 A⟩, ⟨"a.mm".toList, 16, .vec .integer 2 [![3, -4]]⟩]

theorem plain_a : ∀ p, "a".toList ≠ p ++ ".mm".toList ∧ "a".toList ≠ p ++ ".mtx".toList := by
  intro p
  constructor <;> intro h <;> have := congrArg List.length h <;> rw [List.length_append] at this <;>
    simp only [show "a".toList.length = 1 from by decide, show ".mm".toList.length = 3 from by decide, show ".mtx".toList.length = 4 from by decide] at this <;> omega

example (A : SpMat (Fin 1 → Fin 1 → Int)) : Goes "a".toList "a.mm".toList ∧ Latest (demoHist A) "a.mm".toList ⟨"a.mm".toList, 16, .vec .integer 2 [![3, -4]]⟩ ∧
    Latest (demoHist A) "a.mtx".toList ⟨"a.mtx".toList, 16, .mat .integer 1 1 A⟩ := by
  have g1 : Goes "a".toList "a.mm".toList := .plain _ plain_a
  have g2 : Goes "a.mm".toList "a.mm".toList := .mm "a".toList
  have g3 : Goes "a.mtx".toList "a.mtx".toList := .mtx "a".toList
  refine ⟨g1, ⟨(demoHist A).take 2, [], rfl, g2, by simp⟩, ⟨[_], [_], rfl, g3, ?_⟩⟩
  intro x hx hg
  rw [List.mem_singleton.1 hx] at hg
  have := (goes_iff.1 hg).trans (goes_iff.1 g2).symm
  exact absurd this (by decide)

example (fs : FS) (A : SpMat (Fin 1 → Fin 1 → Int)) : ∃ fs', runStores (fun _ => true) demoPrint (demoHist A) fs = .ok fs' ∧
    loadVectorSeq 2 (fun _ => 0) intCodec fs' "a".toList = .ok [![3, -4]] := by
  have hl : Codec.Lossless (⟨demoPrint 16, intCodec.scan⟩ : Codec Int) := by
    have : demoPrint 16 = intCodec.print := by funext x; simp [demoPrint]
    rw [this]; exact intCodec_lossless
  exact C101_load_vector intCodec demoPrint (fun _ => true) _ fs (fun _ _ _ _ => rfl) "a.mm".toList ⟨"a.mm".toList, 16, .vec .integer 2 [![3, -4]]⟩
    ⟨(demoHist A).take 2, [], rfl, .mm "a".toList, by simp⟩ .integer 2 (by decide) _ rfl _ 16 (Or.inl ⟨by decide, rfl⟩) hl "a".toList (.plain _ plain_a)

end MM
end Istl
