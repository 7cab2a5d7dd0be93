import Verif.Lemmas.ParMM
import Verif.Props.C47

/-!
# C87: parallel MatrixMarket files

Every process stores its matrix or vector, its part of the parallel index set and its neighbours; whatever the order in which the files of the
processes are written, loading gives every process its own data back.
-/

namespace Istl
namespace MM
open Par Bcrs

variable {K : Type} [Zero K] [Neg K] {r c : Nat}

/-- Data of a process that can be stored: the index set is sorted by global index (`ParallelIndexSet`), the neighbours are a `std::set`. -/
structure Storable (pis : PIS) (nb : List Nat) : Prop where
  asc : pis.Pairwise fun a b => a.g < b.g
  nbAsc : nb.Pairwise (· < ·)

theorem ascG_recs {pis : PIS} (pub : Idx → Bool) (h : pis.Pairwise fun a b => a.g < b.g) : AscG (recsOf pub pis) := by
  unfold AscG recsOf
  rw [List.pairwise_map]
  exact h

theorem pisOf_recs (pub : Idx → Bool) (pis : PIS) : pisOf (recsOf pub pis) = some pis := by
  unfold pisOf recsOf
  induction pis with
  | nil => rfl
  | cons e l ih =>
    rw [List.map_cons, List.mapM_cons, ih]
    cases e with
    | mk g loc a => cases a <;> rfl

/-- The name of the file for the matrix. -/
theorem storeWrites_eq (filename : List Char) (rank : Nat) (text : List Char) (pis : List IdxRec) (nb : List Nat) :
    ∃ ext, (ext = ".mm".toList ∨ ext = ".mtx".toList) ∧
      storeWrites filename rank text pis nb true =
        [(rankFile (splitFilename filename).1 rank ext, text), (rankFile (splitFilename filename).1 rank ".idx".toList, indexText pis nb)] ∧
      ∀ fs : FS, fs (rankFile (splitFilename filename).1 rank ext) = some text → openMatrix fs filename rank = .ok (In.ofText text) := by
  obtain ⟨-, h2⟩ := split_cases filename
  unfold storeWrites openMatrix openFile
  by_cases h : (splitFilename filename).2 = []
  · refine ⟨".mm".toList, Or.inl rfl, by simp [h], fun fs hf => ?_⟩
    simp only [h, ne_eq, not_true_eq_false, if_false, hf]
  · refine ⟨(splitFilename filename).2, by tauto, by simp [h], fun fs hf => ?_⟩
    simp only [h, ne_eq, not_false_eq_true, if_true, hf]

theorem ext_ne_idx {ext : List Char} (h : ext = ".mm".toList ∨ ext = ".mtx".toList) : IsExt ext ∧ ext ≠ ".idx".toList := by
  rcases h with rfl | rfl
  · exact ⟨isExt_mm, by decide⟩
  · exact ⟨isExt_mtx, by decide⟩

/-- All files of all processes have different names. -/
theorem writes_nodup (filename : List Char) (P : Nat) (text : Nat → List Char) (pis : Nat → List IdxRec) (nb : Nat → List Nat) :
    (((List.range P).flatMap fun p => storeWrites filename p (text p) (pis p) (nb p) true).map Prod.fst).Nodup := by
  rw [List.map_flatMap, List.nodup_flatMap]
  constructor
  · intro p _
    obtain ⟨ext, he, hw, -⟩ := storeWrites_eq filename p (text p) (pis p) (nb p)
    obtain ⟨h1, h2⟩ := ext_ne_idx he
    rw [hw]
    simp only [List.map_cons, List.map_nil, List.nodup_cons, List.mem_singleton, List.not_mem_nil, not_false_eq_true, List.nodup_nil, and_true]
    exact fun h => h2 (rankFile_inj h1 isExt_idx h).2.2
  · refine (List.nodup_range (n := P)).imp_of_mem ?_
    intro p q _ _ hpq
    obtain ⟨e, he, hw, -⟩ := storeWrites_eq filename p (text p) (pis p) (nb p)
    obtain ⟨f, hf, hv, -⟩ := storeWrites_eq filename q (text q) (pis q) (nb q)
    rw [Function.onFun, hw, hv]
    intro x hx hy
    simp only [List.map_cons, List.map_nil, List.mem_cons, List.not_mem_nil, or_false] at hx hy
    obtain ⟨h1, -⟩ := ext_ne_idx he
    obtain ⟨h3, -⟩ := ext_ne_idx hf
    rcases hx with rfl | rfl <;> rcases hy with h | h
    · exact hpq (rankFile_inj h1 h3 h).2.1
    · exact hpq (rankFile_inj h1 isExt_idx h).2.1
    · exact hpq (rankFile_inj isExt_idx h3 h).2.1
    · exact hpq (rankFile_inj isExt_idx isExt_idx h).2.1

/-- After all processes have stored, in any order of the writes, each finds its own files. -/
theorem stored_files (canOpen : List Char → Bool) (hopen : ∀ n, canOpen n = true) (filename : List Char) (P : Nat) (text : Nat → List Char)
    (pis : Nat → List IdxRec) (nb : Nat → List Nat) (ws : List (List Char × List Char))
    (hws : ws.Perm ((List.range P).flatMap fun p => storeWrites filename p (text p) (pis p) (nb p) true)) (fs : FS) :
    ∃ fs', ws.foldlM (writeFile canOpen) fs = .ok fs' ∧
      (∀ p < P, openMatrix fs' filename p = .ok (In.ofText (text p)) ∧
        fs' (rankFile (splitFilename filename).1 p ".idx".toList) = some (indexText (pis p) (nb p))) ∧
      ∀ n, n ∉ ws.map Prod.fst → fs' n = fs n := by
  obtain ⟨fs', h1, h2, h3⟩ := writes_spec canOpen ws fs (fun w _ => hopen _)
    ((hws.map Prod.fst).nodup_iff.2 (writes_nodup filename P text pis nb))
  refine ⟨fs', h1, fun p hp => ?_, h3⟩
  obtain ⟨ext, -, hw, hop⟩ := storeWrites_eq filename p (text p) (pis p) (nb p)
  have hm : ∀ w ∈ storeWrites filename p (text p) (pis p) (nb p) true, w ∈ ws := by
    intro w hw
    exact hws.mem_iff.2 (List.mem_flatMap.2 ⟨p, List.mem_range.2 hp, hw⟩)
  rw [hw] at hm
  exact ⟨hop fs' (h2 _ (hm _ List.mem_cons_self)), h2 _ (hm _ (List.mem_cons_of_mem _ List.mem_cons_self))⟩

/-- For any number of processes, any local matrices, index sets and neighbours and any name: after all processes have stored their matrices,
the files written in any order (`ws`), every process loads the matrix it stored, its index set with attributes and public flags, and its
neighbours. -/
theorem C87_round_trip (cd : Codec K) (hcd : cd.Lossless) (conj : K → K) (ct : CType) (hr : 0 < r) (hc : 0 < c) (filename : List Char) (P : Nat)
    (A : Nat → SpMat (Fin r → Fin c → K)) (hA : ∀ p < P, (A p).WF) (pis : Nat → PIS) (pub : Nat → Idx → Bool) (nb : Nat → List Nat)
    (hst : ∀ p < P, Storable (pis p) (nb p)) (canOpen : List Char → Bool) (hopen : ∀ n, canOpen n = true) (fs : FS)
    (ws : List (List Char × List Char))
    (hws : ws.Perm ((List.range P).flatMap fun p =>
      storeWrites filename p (writeMatrix ct cd.print (A p)) (recsOf (pub p) (pis p)) (nb p) true)) :
    ∃ fs', ws.foldlM (writeFile canOpen) fs = .ok fs' ∧
      ∀ p < P, ∀ (h : Heap (Fin r → Fin c → K)) (bm : BuildMode), bm ≠ .implicit →
        ∃ A' recs s, loadMatrixPar r c (getVal cd) conj fs' filename p [] ⟨h, empty bm⟩ = .ok (A', recs, some (nb p)) s ∧ s.o.ready = .built ∧
          SameMat A' (A p) ∧ pisOf recs = some (pis p) ∧ recs.map (·.pub) = (pis p).map (pub p) := by
  obtain ⟨fs', h1, h2, -⟩ := stored_files canOpen hopen filename P _ _ nb ws hws fs
  refine ⟨fs', h1, fun p hp h bm hbm => ?_⟩
  obtain ⟨ho, hi⟩ := h2 p hp
  obtain ⟨A', s, ha, hb, hs⟩ := C47_round_trip cd hcd conj ct hr hc (A p) (hA p hp) h bm hbm
  refine ⟨A', recsOf (pub p) (pis p), s, ?_, hb, hs, pisOf_recs _ _, by simp [recsOf]⟩
  have hx := loadIndices_text hi (ascG_recs (pub p) (hst p hp).asc) (hst p hp).nbAsc
  unfold loadMatrixPar
  rw [ho, Cmd.bind_ok (Cmd.lift_ok _ _), Cmd.bind_ok ha, hx, Cmd.bind_ok (Cmd.lift_ok _ _)]
  rfl

omit [Neg K] in
/-- The same for vectors. -/
theorem C87_vector_round_trip {k : Nat} (cd : Codec K) (hcd : cd.Lossless) (hk : 0 < k) (fresh : Fin k → K) (ct : CType) (filename : List Char) (P : Nat)
    (v : Nat → List (Fin k → K)) (pis : Nat → PIS) (pub : Nat → Idx → Bool) (nb : Nat → List Nat)
    (hst : ∀ p < P, Storable (pis p) (nb p)) (canOpen : List Char → Bool) (hopen : ∀ n, canOpen n = true) (fs : FS)
    (ws : List (List Char × List Char))
    (hws : ws.Perm ((List.range P).flatMap fun p =>
      storeWrites filename p (writeVector ct cd.print (v p)) (recsOf (pub p) (pis p)) (nb p) true)) :
    ∃ fs', ws.foldlM (writeFile canOpen) fs = .ok fs' ∧
      ∀ p < P, ∃ recs, loadVectorPar k fresh cd fs' filename p [] = .ok (v p, recs, some (nb p)) ∧
        pisOf recs = some (pis p) ∧ recs.map (·.pub) = (pis p).map (pub p) := by
  obtain ⟨fs', h1, h2, -⟩ := stored_files canOpen hopen filename P _ _ nb ws hws fs
  refine ⟨fs', h1, fun p hp => ?_⟩
  obtain ⟨ho, hi⟩ := h2 p hp
  refine ⟨recsOf (pub p) (pis p), ?_, pisOf_recs _ _, by simp [recsOf]⟩
  have hx := loadIndices_text hi (ascG_recs (pub p) (hst p hp).asc) (hst p hp).nbAsc
  unfold loadVectorPar
  rw [ho, Res.ok_bind, C47_vector_round_trip cd hcd hk fresh ct (v p), Res.ok_bind, hx, Res.ok_bind]

/-- Storing leaves all files alone that are not files of the stored object: their names are the name without extension, `_`, a rank and
an extension `.mm`, `.mtx` or `.idx`. -/
theorem C87_other_files (canOpen : List Char → Bool) (filename : List Char) (rank : Nat) (text : List Char) (pis : List IdxRec) (nb : List Nat)
    (b : Bool) (fs fs' : FS) (h : storePar canOpen filename rank text pis nb b fs = .ok fs') (n : List Char)
    (hn : ∀ e ∈ [".mm".toList, ".mtx".toList, ".idx".toList], n ≠ (splitFilename filename).1 ++ '_' :: (dec rank ++ e)) : fs' n = fs n := by
  obtain ⟨-, h2⟩ := split_cases filename
  have hg : ∀ (ws : List (List Char × List Char)) (fs fs' : FS), ws.foldlM (writeFile canOpen) fs = .ok fs' → n ∉ ws.map Prod.fst → fs' n = fs n := by
    intro ws
    induction ws with
    | nil => intro fs fs' h _; rw [show fs = fs' from Res.ok.inj h]
    | cons w ws ih =>
      intro fs fs' h hm
      rw [List.map_cons, List.mem_cons, not_or] at hm
      rw [List.foldlM_cons] at h
      obtain ⟨f1, e1, e2⟩ := Res.bind_eq_ok.1 h
      rw [ih f1 fs' e2 hm.2]
      unfold writeFile at e1
      split_ifs at e1
      rw [← Res.ok.inj e1]
      simp [hm.1]
  refine hg _ fs fs' h ?_
  have hmm := hn ".mm".toList (by simp)
  have hmtx := hn ".mtx".toList (by simp)
  have hidx := hn ".idx".toList (by simp)
  unfold storeWrites rankFile
  rcases h2 with h2 | h2 | h2 <;> cases b <;> simp only [h2] <;> simp_all

/-- Two processes, or one process storing under two names, never write the same file, unless rank and name (without the extension) agree. -/
theorem C87_names (f1 f2 : List Char) (r1 r2 : Nat) (t1 t2 : List Char) (p1 p2 : List IdxRec) (n1 n2 : List Nat) (b1 b2 : Bool)
    (name : List Char) (h1 : name ∈ (storeWrites f1 r1 t1 p1 n1 b1).map Prod.fst) (h2 : name ∈ (storeWrites f2 r2 t2 p2 n2 b2).map Prod.fst) :
    r1 = r2 ∧ (splitFilename f1).1 = (splitFilename f2).1 := by
  have key : ∀ (f : List Char) (r : Nat) (t : List Char) (p : List IdxRec) (n : List Nat) (b : Bool),
      name ∈ (storeWrites f r t p n b).map Prod.fst → ∃ e, IsExt e ∧ name = rankFile (splitFilename f).1 r e := by
    intro f r t p n b h
    obtain ⟨ext, he, hw, -⟩ := storeWrites_eq f r t p n
    have hsub : name ∈ (storeWrites f r t p n true).map Prod.fst := by
      cases b with
      | true => exact h
      | false =>
        unfold storeWrites at h ⊢
        simp only [Bool.false_eq_true, if_false, if_true, List.map_cons, List.map_nil, List.mem_singleton, List.mem_cons] at h ⊢
        exact Or.inl (h.resolve_right List.not_mem_nil)
    rw [hw] at hsub
    simp only [List.map_cons, List.map_nil, List.mem_cons, List.not_mem_nil, or_false] at hsub
    rcases hsub with h | h
    · exact ⟨ext, (ext_ne_idx he).1, h⟩
    · exact ⟨_, isExt_idx, h⟩
  obtain ⟨e1, x1, y1⟩ := key _ _ _ _ _ _ h1
  obtain ⟨e2, x2, y2⟩ := key _ _ _ _ _ _ h2
  obtain ⟨z1, z2, -⟩ := rankFile_inj x1 x2 (y1.symm.trans y2)
  exact ⟨z2, z1⟩

/-- Only the extensions `.mm` and `.mtx` are split off: a name ending in one of them loses it, any other name is kept. -/
theorem C87_split (f : List Char) :
    (∀ p, f = p ++ ".mm".toList → splitFilename f = (p, ".mm".toList)) ∧ (∀ p, f = p ++ ".mtx".toList → splitFilename f = (p, ".mtx".toList)) ∧
      ((¬∃ p, f = p ++ ".mm".toList ∨ f = p ++ ".mtx".toList) → splitFilename f = (f, [])) := by
  refine ⟨fun p h => h ▸ split_mm p, fun p h => h ▸ split_mtx p, fun h => ?_⟩
  obtain ⟨h1, h2 | h2 | h2⟩ := split_cases f
  · exact split_none h2
  · exact absurd ⟨_, Or.inl (h2 ▸ h1.symm)⟩ h
  · exact absurd ⟨_, Or.inr (h2 ▸ h1.symm)⟩ h

/-- A missing index file is an `IOError`; so is a missing matrix file. -/
theorem C87_missing_throws (fs : FS) (filename : List Char) (rank : Nat) (pis : List IdxRec) :
    (fs (rankFile (splitFilename filename).1 rank ".idx".toList) = none → loadIndices fs filename rank pis = .throw .ioError) ∧
      ((∀ e ∈ [".mm".toList, ".mtx".toList], fs (rankFile (splitFilename filename).1 rank e) = none) → openMatrix fs filename rank = .throw .ioError) := by
  constructor
  · intro h
    unfold loadIndices openFile
    rw [h]; rfl
  · intro h
    have h1 := h ".mm".toList (by simp)
    have h2 := h ".mtx".toList (by simp)
    obtain ⟨-, h3 | h3 | h3⟩ := split_cases filename <;> unfold openMatrix openFile
    · simp only [h3, ne_eq, not_true_eq_false, if_false, h1, h2]
    · simp only [h3, ne_eq, show ¬(".mm".toList = []) from by decide, not_false_eq_true, if_true, h1]
    · simp only [h3, ne_eq, show ¬(".mtx".toList = []) from by decide, not_false_eq_true, if_true, h2]

/-- A file that cannot be opened for writing is an `IOError`. -/
theorem C87_store_throws (canOpen : List Char → Bool) (filename : List Char) (rank : Nat) (text : List Char) (pis : List IdxRec) (nb : List Nat) (fs : FS)
    (h : ∃ w ∈ storeWrites filename rank text pis nb true, canOpen w.1 = false) : storePar canOpen filename rank text pis nb true fs = .throw .ioError := by
  obtain ⟨ext, -, hw, -⟩ := storeWrites_eq filename rank text pis nb
  unfold storePar
  rw [hw] at h ⊢
  obtain ⟨w, hm, hc⟩ := h
  rw [List.foldlM_cons, writeFile]
  by_cases h1 : canOpen (rankFile (splitFilename filename).1 rank ext) = true
  · rw [if_pos h1, Res.ok_bind, List.foldlM_cons, writeFile]
    simp only [List.mem_cons, List.not_mem_nil, or_false] at hm
    rcases hm with rfl | rfl
    · rw [h1] at hc; exact absurd hc (by simp)
    · rw [if_neg (by rw [hc]; simp)]; rfl
  · rw [if_neg h1]; rfl

/-- Loading into a communication object that has an index set already throws. -/
theorem C87_nonempty_throws (fs : FS) (filename : List Char) (rank : Nat) (pis : List IdxRec) (hp : pis ≠ []) (t : List Char)
    (h : fs (rankFile (splitFilename filename).1 rank ".idx".toList) = some t) : loadIndices fs filename rank pis = .throw .invalidState := by
  unfold loadIndices openFile
  rw [h]
  simp only [Res.ok_bind]
  rw [if_pos (by simpa using hp)]

/-- Finding: the reader expects the line of the neighbours (although it has code for the case without): an index file that ends after the
index set makes it add an entry made of uninitialised variables. -/
theorem C87_no_neighbours_counterexample (fs : FS) (filename : List Char) (rank : Nat) (pis : List IdxRec)
    (h : fs (rankFile (splitFilename filename).1 rank ".idx".toList) = some (pis.flatMap printRec)) : loadIndices fs filename rank [] = .ub := by
  unfold loadIndices openFile
  rw [h]
  simp only [Res.ok_bind, List.length_nil, ne_eq, not_true_eq_false, if_false]
  have : idxLoop ((In.ofText (pis.flatMap printRec)).rest.length + 1) [] (In.ofText (pis.flatMap printRec)) = .ub :=
    idxLoop_cut (pis.flatMap printRec) pis _ []
  rw [this]; rfl

/-- Finding: a line break at the end of an index file makes the reader insert an uninitialised number into the neighbours. -/
theorem C87_newline_counterexample (fs : FS) (filename : List Char) (rank : Nat) (pis : List IdxRec) (nb : List Nat)
    (h : fs (rankFile (splitFilename filename).1 rank ".idx".toList) = some (indexText pis nb ++ ['\n'])) : loadIndices fs filename rank [] = .ub := by
  unfold loadIndices openFile
  rw [h]
  simp only [Res.ok_bind, List.length_nil, ne_eq, not_true_eq_false, if_false]
  generalize hT : indexText pis nb ++ ['\n'] = T
  have e1 : T = pis.flatMap printRec ++ 'n' :: ("eighbours:".toList ++ ((nb.flatMap fun n => ' ' :: dec n) ++ ['\n'])) := by
    have : "neighbours:".toList = 'n' :: "eighbours:".toList := by decide
    rw [← hT, indexText, this]; simp
  have hl := idxLoop_print T pis (T.length + 1) [] ("eighbours:".toList ++ ((nb.flatMap fun n => ' ' :: dec n) ++ ['\n']))
    (by have := length_recs pis ('n' :: ("eighbours:".toList ++ ((nb.flatMap fun n => ' ' :: dec n) ++ ['\n']))); rw [← e1] at this; omega)
  rw [← e1] at hl
  have hl' : idxLoop ((In.ofText T).rest.length + 1) [] (In.ofText T) =
      .ok ([] ++ pis, gs T ('n' :: ("eighbours:".toList ++ ((nb.flatMap fun n => ' ' :: dec n) ++ ['\n'])))) := hl
  rw [hl', Res.ok_bind]
  have hc : ∃ d t, (nb.flatMap fun n => ' ' :: dec n) ++ ['\n'] = d :: t ∧ isSpace d = true := by
    cases nb with
    | nil => exact ⟨'\n', [], by simp, by decide⟩
    | cons n nb => exact ⟨' ', _, by simp; rfl, by decide⟩
  obtain ⟨d, t, hd, hsp⟩ := hc
  have hw := getWord_spec T "neighbours:".toList 'n' "eighbours:".toList (by decide) d t (by decide) hsp
  rw [← hd] at hw
  have e2 : 'n' :: ("eighbours:".toList ++ ((nb.flatMap fun n => ' ' :: dec n) ++ ['\n'])) = "neighbours:".toList ++ ((nb.flatMap fun n => ' ' :: dec n) ++ ['\n']) := by
    have : "neighbours:".toList = 'n' :: "eighbours:".toList := by decide
    rw [this]; rfl
  rw [e2]
  rw [if_neg (by simp [gs]), hw]
  rw [if_neg (by simp), nbLoop_newline]
  rfl

/-- Finding: without extension the name `x` stands for `x_0.mm` before `x_0.mtx`; after storing as `x` and then another text as `x.mtx`, loading
`x` gives the older one. -/
theorem C87_stale_counterexample (canOpen : List Char → Bool) (hopen : ∀ n, canOpen n = true) (p : List Char) (hp : splitFilename p = (p, [])) (rank : Nat)
    (t1 t2 : List Char) (pis : List IdxRec) (nb : List Nat) (fs : FS) :
    ∃ f1 f2, storePar canOpen p rank t1 pis nb true fs = .ok f1 ∧ storePar canOpen (p ++ ".mtx".toList) rank t2 pis nb true f1 = .ok f2 ∧
      openMatrix f2 p rank = .ok (In.ofText t1) := by
  have n1 : rankFile p rank ".mm".toList ≠ rankFile p rank ".idx".toList := fun h => absurd (rankFile_inj isExt_mm isExt_idx h).2.2 (by decide)
  have n2 : rankFile p rank ".mm".toList ≠ rankFile p rank ".mtx".toList := fun h => absurd (rankFile_inj isExt_mm isExt_mtx h).2.2 (by decide)
  have n3 : rankFile p rank ".mtx".toList ≠ rankFile p rank ".idx".toList := fun h => absurd (rankFile_inj isExt_mtx isExt_idx h).2.2 (by decide)
  have e1 : storeWrites p rank t1 pis nb true = [(rankFile p rank ".mm".toList, t1), (rankFile p rank ".idx".toList, indexText pis nb)] := by
    unfold storeWrites; rw [hp]; simp
  have e2 : storeWrites (p ++ ".mtx".toList) rank t2 pis nb true =
      [(rankFile p rank ".mtx".toList, t2), (rankFile p rank ".idx".toList, indexText pis nb)] := by
    unfold storeWrites; rw [split_mtx]; simp
  obtain ⟨f1, a1, a2, -⟩ := writes_spec canOpen _ fs (fun w _ => hopen _) (by rw [e1]; simpa using n1 : ((storeWrites p rank t1 pis nb true).map Prod.fst).Nodup)
  obtain ⟨f2, b1, -, b3⟩ := writes_spec canOpen _ f1 (fun w _ => hopen _)
    (by rw [e2]; simpa using n3 : ((storeWrites (p ++ ".mtx".toList) rank t2 pis nb true).map Prod.fst).Nodup)
  refine ⟨f1, f2, a1, b1, ?_⟩
  have h1 : f1 (rankFile p rank ".mm".toList) = some t1 := a2 (rankFile p rank ".mm".toList, t1) (by rw [e1]; exact List.mem_cons_self)
  have h2 := b3 (rankFile p rank ".mm".toList) (by
    rw [e2]
    simp only [List.map_cons, List.map_nil, List.mem_cons, List.not_mem_nil, or_false, not_or]
    exact ⟨n2, n1⟩)
  unfold openMatrix
  rw [hp]
  simp only [ne_eq, not_true_eq_false, if_false, h2, h1]

/-! ### The hypotheses are met -/

/-- Two processes with an index set of three indices. -/
def mmPis (p : Nat) : PIS := if p = 0 then [⟨0, 0, .owner⟩, ⟨1, 1, .overlap⟩] else [⟨0, 1, .copy⟩, ⟨1, 0, .owner⟩, ⟨12, 2, .owner⟩]

example : ∀ p < 2, Storable (mmPis p) [1 - p] := by
  intro p hp
  have : p = 0 ∨ p = 1 := by omega
  rcases this with rfl | rfl <;> exact ⟨by decide, by decide⟩

example : storeWrites "a_1/sys.mtx".toList 1 ['x'] (recsOf (fun _ => true) (mmPis 1)) [0] true =
    [("a_1/sys_1.mtx".toList, ['x']), ("a_1/sys_1.idx".toList, "0 1 3 1\n1 0 1 1\n12 2 1 1\nneighbours: 0".toList)] := by decide +kernel

example : splitFilename "v1.2/sys".toList = ("v1.2/sys".toList, []) := by decide

example : loadIndices (fun n => if n = "s_1.idx".toList then some "1 0 1 1\n0 1 3 0\nneighbours: 4 0".toList else none) "s.mm".toList 1 [] =
    .ok ([⟨0, 1, 3, false⟩, ⟨1, 0, 1, true⟩], some [0, 4]) := by decide +kernel

end MM
end Istl
