import Verif.Spec.SeqMM
import Verif.Lemmas.ParMM
import Verif.Lemmas.MMDefect3

/-! Lemmas for C101. -/

namespace Istl
namespace MM

theorem goes_storeName {f n : List Char} (h : Goes f n) : storeName f = n := by
  cases h with
  | mm p => simp only [storeName, split_mm, ne_eq, show ¬(".mm".toList = []) from by decide, not_false_eq_true, if_true]
  | mtx p => simp only [storeName, split_mtx, ne_eq, show ¬(".mtx".toList = []) from by decide, not_false_eq_true, if_true]
  | plain _ h =>
    have : splitFilename f = (f, []) := by
      obtain ⟨h1, h2 | h2 | h2⟩ := split_cases f
      · exact split_none h2
      · exact absurd (h2 ▸ h1.symm) (h _).1
      · exact absurd (h2 ▸ h1.symm) (h _).2
    simp [storeName, this]

theorem goes_self (f : List Char) : Goes f (storeName f) := by
  obtain ⟨h1, h2 | h2 | h2⟩ := split_cases f
  · have hs := split_none h2
    have : storeName f = f ++ ".mm".toList := by simp [storeName, hs]
    rw [this]
    refine .plain f fun p => ⟨fun e => ?_, fun e => ?_⟩
    · rw [e, split_mm] at hs; simp at hs
    · rw [e, split_mtx] at hs; simp at hs
  · have e : f = (splitFilename f).1 ++ ".mm".toList := h2 ▸ h1.symm
    have : storeName f = (splitFilename f).1 ++ ".mm".toList := by simp [storeName, h2]
    rw [this]
    conv => arg 1; rw [e]
    exact .mm _
  · have e : f = (splitFilename f).1 ++ ".mtx".toList := h2 ▸ h1.symm
    have : storeName f = (splitFilename f).1 ++ ".mtx".toList := by simp [storeName, h2]
    rw [this]
    conv => arg 1; rw [e]
    exact .mtx _

theorem goes_iff {f n : List Char} : Goes f n ↔ n = storeName f :=
  ⟨fun h => (goes_storeName h).symm, fun h => h ▸ goes_self f⟩

theorem asks_digits {p : Int} {d : Nat} (h : Asks p d) : digits p = d := by
  unfold digits
  rcases h with ⟨h1, h2⟩ | ⟨h1, h2⟩
  · rw [if_pos h1]; omega
  · rw [if_neg (by omega), h2]

theorem openSeq_goes {fs : FS} {g n t : List Char} (h : Goes g n) (hn : fs n = some t) : openSeq fs g = .ok (In.ofText t) := by
  cases h with
  | mm p => simp only [openSeq, split_mm, openFile, hn, ne_eq, show ¬(".mm".toList = []) from by decide, not_false_eq_true, if_true]
  | mtx p => simp only [openSeq, split_mtx, openFile, hn, ne_eq, show ¬(".mtx".toList = []) from by decide, not_false_eq_true, if_true]
  | plain _ h =>
    have : splitFilename g = (g, []) := by
      obtain ⟨h1, h2 | h2 | h2⟩ := split_cases g
      · exact split_none h2
      · exact absurd (h2 ▸ h1.symm) (h _).1
      · exact absurd (h2 ▸ h1.symm) (h _).2
    simp only [openSeq, this, hn, ne_eq, not_true_eq_false, if_false]

theorem openSeq_plain {fs : FS} {g : List Char} (hg : ∀ p, g ≠ p ++ ".mm".toList ∧ g ≠ p ++ ".mtx".toList) (hn : fs (g ++ ".mm".toList) = none) :
    openSeq fs g = openFile fs (g ++ ".mtx".toList) := by
  have : splitFilename g = (g, []) := by
    obtain ⟨h1, h2 | h2 | h2⟩ := split_cases g
    · exact split_none h2
    · exact absurd (h2 ▸ h1.symm) (hg _).1
    · exact absurd (h2 ▸ h1.symm) (hg _).2
  simp only [openSeq, this, ne_eq, not_true_eq_false, if_false, hn]

variable {K : Type}

theorem run_spec (print : Nat → K → List Char) (canOpen : List Char → Bool) : ∀ (hist : List (Store K)) (fs : FS),
    (∀ s ∈ hist, canOpen (storeName s.name) = true) → ∃ fs', runStores canOpen print hist fs = .ok fs' ∧
      (∀ n s, Latest hist n s → fs' n = some (s.content.text print (digits s.prec))) ∧
      ∀ n, (∀ s ∈ hist, ¬Goes s.name n) → fs' n = fs n := by
  intro hist
  induction hist with
  | nil =>
    intro fs _
    refine ⟨fs, rfl, ?_, fun _ _ => rfl⟩
    rintro n s ⟨pre, post, he, -⟩
    cases pre <;> simp at he
  | cons a l ih =>
    intro fs ho
    obtain ⟨fs', h1, h2, h3⟩ := ih (fun n => if n = storeName a.name then some (a.content.text print (digits a.prec)) else fs n)
      (fun s hs => ho s (List.mem_cons_of_mem _ hs))
    refine ⟨fs', ?_, ?_, ?_⟩
    · unfold runStores at h1 ⊢
      rw [List.foldlM_cons]
      simp only [storeSeq, writeFile, ho a List.mem_cons_self, if_true]
      exact h1
    · rintro n s ⟨pre, post, he, hg, hp⟩
      cases pre with
      | nil =>
        simp only [List.nil_append, List.cons.injEq] at he
        obtain ⟨rfl, rfl⟩ := he
        rw [h3 n hp, if_pos (goes_iff.1 hg)]
      | cons b pre =>
        simp only [List.cons_append, List.cons.injEq] at he
        exact h2 n s ⟨pre, post, he.2, hg, hp⟩
    · intro n hn
      rw [h3 n fun s hs => hn s (List.mem_cons_of_mem _ hs), if_neg fun e => hn a List.mem_cons_self (goes_iff.2 e)]

/-- The preamble of a file of a matrix or vector. -/
def plainPre (ty : MType) (ct : CType) (comment : List Char) : Preamble :=
  .line ⟨"%%MatrixMarket".toList, [(0, "matrix".toList), (0, ty.name), (0, ct.name), (0, "general".toList)], 0⟩ [comment]

theorem plainPre_ok (ty : MType) (ct : CType) (comment : List Char) (h : '\n' ∉ comment) : (plainPre ty ct comment).Ok := by
  refine ⟨⟨?_, ?_⟩, rfl, fun x hx => List.mem_singleton.1 hx ▸ h⟩
  · exact ⟨by change "%%MatrixMarket".toList ≠ []; decide, by change ∀ x ∈ "%%MatrixMarket".toList, isSpace x = false; decide⟩
  · cases ty <;> cases ct <;> simp only [List.mem_cons, List.not_mem_nil, or_false, forall_eq_or_imp, forall_eq, IsWord] <;> decide

theorem plainPre_text (ty : MType) (ct : CType) (comment : List Char) :
    (plainPre ty ct comment).text = "%%MatrixMarket matrix ".toList ++ ty.name ++ ' ' :: ct.name ++ " general\n".toList ++ '%' :: comment ++ ['\n'] := by
  simp only [plainPre, Preamble.text, WordLine.text, tailText, List.flatMap_cons, List.flatMap_nil, List.append_nil, commentText]
  have e1 : "%%MatrixMarket matrix ".toList = "%%MatrixMarket".toList ++ ' ' :: ("matrix".toList ++ [' ']) := by decide
  have e2 : " general\n".toList = ' ' :: ("general".toList ++ ['\n']) := by decide
  rw [e1, e2]
  generalize "%%MatrixMarket".toList = b0
  generalize "matrix".toList = b1
  generalize "general".toList = b2
  generalize ty.name = b3
  generalize ct.name = b4
  simp [List.replicate_succ, List.append_assoc]

theorem plainPre_said (ty : MType) (ct : CType) (comment : List Char) : (plainPre ty ct comment).said.type = ty ∧ (plainPre ty ct comment).Complete := by
  refine ⟨by cases ty <;> cases ct <;> rfl, ?_⟩
  exact ⟨_, _, _, _, _, rfl, rfl, rfl, by cases ty <;> rfl, by cases ct <;> rfl, rfl⟩

theorem newline_dec (n : Nat) : '\n' ∉ dec n := by
  intro h
  exact absurd ((dec_spec n).2.1 _ h) (by decide)

variable [Zero K]

theorem readVector_coordinate {k : Nat} (fresh : Fin k → K) (cd : Codec K) (ct : CType) (comment : List Char) (hc : '\n' ∉ comment) (N M E : Nat) (body : List Char) :
    readVector k fresh cd (In.ofText ((plainPre .coordinate ct comment).text ++ (dec N ++ (' ' :: (dec M ++ ' ' :: (dec E ++ '\n' :: body)))))) = .throw .formatError := by
  set P := plainPre .coordinate ct comment
  have hP : P.Ok := plainPre_ok _ _ _ hc
  have hsd : P.said.type = .coordinate ∧ P.Complete := plainPre_said _ _ _
  set t := P.text ++ (dec N ++ (' ' :: (dec M ++ ' ' :: (dec E ++ '\n' :: body)))) with ht
  obtain ⟨d, ds, hd, hdig⟩ := dec_cons N
  obtain ⟨h1, h2, h3⟩ := readHeader_preamble P hP d (ds ++ (' ' :: (dec M ++ ' ' :: (dec E ++ '\n' :: body)))) hdig
  rw [← List.cons_append, ← hd, ← ht] at h1 h2 h3
  have l1 := lineFeed_dec t N (' ' :: (dec M ++ ' ' :: (dec E ++ '\n' :: body)))
  have g1 := getNat_dec t [] N ' ' (dec M ++ ' ' :: (dec E ++ '\n' :: body)) (by simp) (by decide)
  have l2 := lineFeed_blank_dec t M (' ' :: (dec E ++ '\n' :: body))
  have g2 := getNat_dec t [] M ' ' (dec E ++ '\n' :: body) (by simp) (by decide)
  simp only [List.nil_append] at g1 g2
  unfold readHeader at h1 h2
  unfold readVector
  have hb : (readBanner (In.ofText t)).1 = true := h3.2 hsd.2
  simp only [hb, if_true] at h1 h2
  simp only [hb, if_true, h1, h2, l1, g1, l2, g2, need, Res.ok_bind, Bool.false_eq_true, if_false, hsd.1]
  by_cases hM : M ≠ 1
  · rw [if_pos hM]
  · rw [if_neg hM, if_pos (by decide)]

theorem writeMatrix_pre {r c : Nat} (ct : CType) (print : K → List Char) (A : SpMat (Fin r → Fin c → K)) : ∃ body,
    writeMatrix ct print A = (plainPre .coordinate ct (" ISTL_STRUCT blocked ".toList ++ (dec r ++ ' ' :: dec c))).text ++
      (dec (A.n * r) ++ (' ' :: (dec (A.m * c) ++ ' ' :: (dec (countNonZeros A) ++ '\n' :: body)))) := by
  refine ⟨(List.range A.n).flatMap fun i => (A.row i).flatMap fun e => printEntry print e.2 (i * r + 1) (e.1 * c + 1), ?_⟩
  rw [plainPre_text]
  unfold writeMatrix
  have e1 : "%%MatrixMarket matrix coordinate ".toList = "%%MatrixMarket matrix ".toList ++ (MType.coordinate.name ++ [' ']) := by decide
  have e3 : "% ISTL_STRUCT blocked ".toList = '%' :: " ISTL_STRUCT blocked ".toList := by decide
  rw [e1, e3]
  simp only [List.append_assoc, List.cons_append, List.nil_append]

theorem writeVector_pre {k : Nat} (ct : CType) (print : K → List Char) (v : List (Fin k → K)) : ∃ body,
    writeVector ct print v = (plainPre .array ct (" ISTL_STRUCT blocked ".toList ++ (dec k ++ " 1".toList))).text ++
      (dec (v.length * k) ++ (' ' :: (dec 1 ++ (List.replicate 0 ' ' ++ '\n' :: body)))) := by
  refine ⟨v.flatMap fun blk => (List.finRange k).flatMap fun b => print (blk b) ++ ['\n'], ?_⟩
  rw [plainPre_text]
  unfold writeVector
  have e1 : "%%MatrixMarket matrix array ".toList = "%%MatrixMarket matrix ".toList ++ (MType.array.name ++ [' ']) := by decide
  have e3 : "% ISTL_STRUCT blocked ".toList = '%' :: " ISTL_STRUCT blocked ".toList := by decide
  have e4 : " 1\n".toList = ' ' :: (dec 1 ++ ['\n']) := by decide
  have e5 : " 1".toList = ' ' :: dec 1 := by decide
  rw [e1, e3, e4, e5]
  simp only [List.append_assoc, List.cons_append, List.nil_append, List.replicate_zero]

theorem getVal_scan {cd cd' : Codec K} (h : cd.scan = cd'.scan) : getVal cd = getVal cd' := by
  unfold getVal; rw [h]

theorem readVectorLoop_scan {k : Nat} {cd cd' : Codec K} (h : cd.scan = cd'.scan) : ∀ (n i : Nat) (s : In) (v : List (Fin k → K)),
    readVectorLoop k cd i n s v = readVectorLoop k cd' i n s v := by
  intro n
  induction n with
  | zero => intros; rfl
  | succ n ih =>
    intro i s v
    unfold readVectorLoop
    simp only [getVal_scan h, ih]

theorem readVector_scan {k : Nat} (fresh : Fin k → K) {cd cd' : Codec K} (h : cd.scan = cd'.scan) (s : In) :
    readVector k fresh cd s = readVector k fresh cd' s := by
  unfold readVector
  simp only [readVectorLoop_scan h]

end MM
end Istl
