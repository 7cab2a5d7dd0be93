import Verif.Model.ParMM
import Verif.Lemmas.Stream
import Verif.Lemmas.MatMat

/-! Lemmas on the parallel MatrixMarket files. -/

namespace Istl
namespace MM
open Par

theorem lastDot_append (p t : List Char) (ht : '.' ∉ t) : lastDot (p ++ '.' :: t) = some (p, '.' :: t) := by
  have h0 : ∀ t : List Char, '.' ∉ t → lastDot t = none := by
    intro t
    induction t with
    | nil => simp [lastDot]
    | cons a t ih =>
      intro h
      have h1 : a ≠ '.' := fun e => h (by simp [e])
      simp [lastDot, ih (fun hx => h (List.mem_cons_of_mem _ hx)), h1]
  induction p with
  | nil => simp [lastDot, h0 t ht]
  | cons a p ih => simp [lastDot, ih]

theorem lastDot_join : ∀ {f : List Char} {p : List Char × List Char}, lastDot f = some p → p.1 ++ p.2 = f := by
  intro f
  induction f with
  | nil => intro p h; simp [lastDot] at h
  | cons a f ih =>
    intro p h
    rw [lastDot] at h
    cases hl : lastDot f with
    | none =>
      rw [hl] at h
      by_cases ha : a = '.'
      · simp [ha] at h; subst h; simp [ha]
      · simp [ha] at h
    | some q =>
      rw [hl] at h
      simp at h
      subst h
      simp [ih hl]

theorem split_cases (f : List Char) :
    (splitFilename f).1 ++ (splitFilename f).2 = f ∧
      ((splitFilename f).2 = [] ∨ (splitFilename f).2 = ".mm".toList ∨ (splitFilename f).2 = ".mtx".toList) := by
  unfold splitFilename
  cases h : lastDot f with
  | none => simp
  | some p =>
    dsimp only
    split_ifs with hp
    · exact ⟨lastDot_join h, Or.inr hp⟩
    · simp

theorem split_mm (p : List Char) : splitFilename (p ++ ".mm".toList) = (p, ".mm".toList) := by
  have := lastDot_append p "mm".toList (by decide)
  have e : ".mm".toList = '.' :: "mm".toList := by decide
  unfold splitFilename
  rw [e, this]
  simp

theorem split_mtx (p : List Char) : splitFilename (p ++ ".mtx".toList) = (p, ".mtx".toList) := by
  have := lastDot_append p "mtx".toList (by decide)
  have e : ".mtx".toList = '.' :: "mtx".toList := by decide
  unfold splitFilename
  rw [e, this]
  simp

theorem split_none {f : List Char} (h : (splitFilename f).2 = []) : splitFilename f = (f, []) := by
  have h1 := (split_cases f).1
  rw [h, List.append_nil] at h1
  exact Prod.ext h1 h

theorem append_sep_inj {c : Char} : ∀ {p q s t : List Char}, c ∉ s → c ∉ t → p ++ c :: s = q ++ c :: t → p = q ∧ s = t := by
  intro p
  induction p with
  | nil =>
    intro q s t hs ht h
    cases q with
    | nil => simpa using h
    | cons a q =>
      simp at h
      exact absurd (by rw [h.2]; simp) hs
  | cons a p ih =>
    intro q s t hs ht h
    cases q with
    | nil =>
      simp at h
      exact absurd (by rw [← h.2]; simp) ht
    | cons b q =>
      simp at h
      obtain ⟨h1, h2⟩ := ih hs ht h.2
      exact ⟨by rw [h.1, h1], h2⟩

/-- The extensions of the files. -/
def IsExt (e : List Char) : Prop := ∃ t, e = '.' :: t ∧ '_' ∉ e

theorem isExt_mm : IsExt ".mm".toList := ⟨"mm".toList, by decide, by decide⟩
theorem isExt_mtx : IsExt ".mtx".toList := ⟨"mtx".toList, by decide, by decide⟩
theorem isExt_idx : IsExt ".idx".toList := ⟨"idx".toList, by decide, by decide⟩

theorem rankFile_inj {p q : List Char} {r s : Nat} {e f : List Char} (he : IsExt e) (hf : IsExt f) (h : rankFile p r e = rankFile q s f) :
    p = q ∧ r = s ∧ e = f := by
  have hn : ∀ (r : Nat) (e : List Char), IsExt e → '_' ∉ dec r ++ e := by
    rintro r e ⟨t, -, ht⟩ hm
    rcases List.mem_append.1 hm with h | h
    · exact absurd ((dec_spec r).2.1 _ h) (by decide)
    · exact ht h
  obtain ⟨h1, h2⟩ := append_sep_inj (hn r e he) (hn s f hf) h
  obtain ⟨t, rfl, -⟩ := he
  obtain ⟨u, rfl, -⟩ := hf
  obtain ⟨a1, a2⟩ := takeWhile_append_stop (p := isDigit) (c := '.') (t := t) (dec_spec r).2.1 (by decide)
  obtain ⟨b1, b2⟩ := takeWhile_append_stop (p := isDigit) (c := '.') (t := u) (dec_spec s).2.1 (by decide)
  rw [h2] at a1 a2
  rw [b1] at a1
  rw [b2] at a2
  refine ⟨h1, ?_, a2.symm⟩
  rw [← (dec_spec r).2.2, ← (dec_spec s).2.2, a1]

/-! ### Reading the index file -/

theorem getNat_blank (all : List Char) (n : Nat) (c : Char) (t : List Char) (hc : isDigit c = false) :
    getNat (gs all (' ' :: (dec n ++ c :: t))) = (some n, gs all (c :: t)) :=
  getNat_dec all [' '] n c t (by simp [isSpace]) hc

theorem getBool_code (all : List Char) (b : Bool) (c : Char) (t : List Char) (hc : isDigit c = false) :
    getBool (gs all (' ' :: (dec (pubCode b) ++ c :: t))) = (some b, gs all (c :: t)) := by
  unfold getBool
  rw [getNat_blank all _ c t hc]
  cases b <;> simp [pubCode]

theorem readRec_print (all : List Char) (e : IdxRec) (t : List Char) : readRec (gs all (printRec e ++ t)) = .ok (e, gs all t) := by
  have hs : isDigit ' ' = false := by decide
  have hn : isDigit '\n' = false := by decide
  have e1 : printRec e ++ t = dec e.g ++ ' ' :: (dec e.loc ++ ' ' :: (dec e.attr ++ ' ' :: (dec (pubCode e.pub) ++ '\n' :: t))) := by
    simp [printRec, List.append_assoc]
  have g1 := getNat_dec all [] e.g ' ' (dec e.loc ++ ' ' :: (dec e.attr ++ ' ' :: (dec (pubCode e.pub) ++ '\n' :: t))) (by simp) hs
  rw [List.nil_append] at g1
  rw [e1]
  unfold readRec
  simp only [g1, getNat_blank all _ _ _ hs, getBool_code all _ _ _ hn, lineFeed_newline, need]
  rfl

theorem idxLoop_print (all : List Char) : ∀ (l : List IdxRec) (k : Nat) (acc : List IdxRec) (t : List Char), l.length < k →
    idxLoop k acc (gs all (l.flatMap printRec ++ 'n' :: t)) = .ok (acc ++ l, gs all ('n' :: t)) := by
  intro l
  induction l with
  | nil =>
    intro k acc t hk
    obtain ⟨k, rfl⟩ : ∃ j, k = j + 1 := ⟨k - 1, by simp at hk; omega⟩
    simp [idxLoop, gs, peek]
  | cons e l ih =>
    intro k acc t hk
    simp only [List.length_cons] at hk
    obtain ⟨k, rfl⟩ : ∃ j, k = j + 1 := ⟨k - 1, by omega⟩
    obtain ⟨d, ds, hd⟩ := List.exists_cons_of_ne_nil (dec_spec e.g).1
    have hdig : isDigit d = true := (dec_spec e.g).2.1 d (by rw [hd]; simp)
    have hdn : d ≠ 'n' := by
      intro e; subst e; exact absurd hdig (by decide)
    have hp : ∃ u, (e :: l).flatMap printRec ++ 'n' :: t = d :: u := by
      simp [printRec, hd]
    obtain ⟨u, hu⟩ := hp
    have hpk : peek (gs all ((e :: l).flatMap printRec ++ 'n' :: t)) = (some d, gs all ((e :: l).flatMap printRec ++ 'n' :: t)) := by
      rw [hu]; simp [peek, gs]
    have hr := readRec_print all e (l.flatMap printRec ++ 'n' :: t)
    rw [idxLoop]
    rw [if_neg (by simp [gs])]
    simp only [hpk, Option.some.injEq, hdn, if_false]
    rw [List.flatMap_cons, List.append_assoc, hr, Res.ok_bind]
    dsimp only
    rw [ih k _ t (by omega), List.append_assoc]
    rfl

/-- The last number of a file: end of file is met. -/
theorem getNat_last (all : List Char) (n : Nat) :
    getNat (gs all (' ' :: dec n)) = (some n, { gs all [] with eof := true }) := by
  obtain ⟨h1, h2, h3⟩ := dec_spec n
  obtain ⟨d, ds, hd⟩ := List.exists_cons_of_ne_nil h1
  have hsp : isSpace d = false := isSpace_of_digit (h2 d (by rw [hd]; simp))
  have hdw : (' ' :: dec n).dropWhile isSpace = dec n := by
    rw [hd]
    have hb : isSpace ' ' = true := by decide
    simp [hb, hsp]
  have htw : (dec n).takeWhile isDigit = dec n := List.takeWhile_eq_self_iff.2 h2
  have hdd : (dec n).dropWhile isDigit = [] := List.dropWhile_eq_nil_iff.2 h2
  unfold getNat formatted
  simp only [gs, Bool.or_self, Bool.false_eq_true, if_false, hdw]
  rw [hd] at htw hdd h3 ⊢
  simp only [htw, hdd, h3]
  simp

theorem nbLoop_print (all : List Char) : ∀ (l : List Nat) (k : Nat) (nb : List Nat), l ≠ [] → l.length < k →
    nbLoop k nb (gs all (l.flatMap fun n => ' ' :: dec n)) = .ok (l.foldl (fun s n => MatMat.setInsert n s) nb) := by
  intro l
  induction l with
  | nil => intro k nb h; exact absurd rfl h
  | cons n l ih =>
    intro k nb _ hk
    simp only [List.length_cons] at hk
    obtain ⟨k, rfl⟩ : ∃ j, k = j + 1 := ⟨k - 1, by omega⟩
    rw [nbLoop, if_neg (by simp [gs])]
    cases l with
    | nil =>
      obtain ⟨k, rfl⟩ : ∃ j, k = j + 1 := ⟨k - 1, by simp at hk; omega⟩
      have := getNat_last all n
      simp only [List.flatMap_cons, List.flatMap_nil, List.append_nil, this, need, Res.ok_bind]
      simp [nbLoop]
    | cons m l =>
      have := getNat_blank all n ' ' (dec m ++ l.flatMap fun n => ' ' :: dec n) (by decide)
      have e : (n :: m :: l).flatMap (fun n => ' ' :: dec n) = ' ' :: (dec n ++ ' ' :: (dec m ++ l.flatMap fun n => ' ' :: dec n)) := by simp
      rw [e]
      simp only [this, need, Res.ok_bind]
      have := ih k (MatMat.setInsert n nb) (by simp) (by simp at hk ⊢; omega)
      simpa using this

theorem setInsert_last {j : Nat} {l : List Nat} (h : ∀ x ∈ l, x < j) : MatMat.setInsert j l = l ++ [j] := by
  have h1 : l.takeWhile (· < j) = l := List.takeWhile_eq_self_iff.2 (by simpa using h)
  have h2 : l.dropWhile (· < j) = [] := List.dropWhile_eq_nil_iff.2 (by simpa using h)
  simp [MatMat.setInsert, h1, h2]

theorem setInsert_all : ∀ (l s : List Nat), (s ++ l).Pairwise (· < ·) → l.foldl (fun s n => MatMat.setInsert n s) s = s ++ l := by
  intro l
  induction l with
  | nil => intro s _; simp
  | cons n l ih =>
    intro s h
    have hs : ∀ x ∈ s, x < n := by
      intro x hx
      exact (List.pairwise_append.1 h).2.2 x hx n (by simp)
    rw [List.foldl_cons, setInsert_last hs, ih _ (by simpa using h)]
    simp

/-- The word `neighbours:` before a blank, and at the end of the file. -/
theorem getWord_nb (all : List Char) (nb : List Nat) :
    (getWord (gs all ("neighbours:".toList ++ nb.flatMap fun n => ' ' :: dec n))).1 = some "neighbours:".toList ∧
      (getWord (gs all ("neighbours:".toList ++ nb.flatMap fun n => ' ' :: dec n))).2 =
        { gs all (nb.flatMap fun n => ' ' :: dec n) with eof := nb.isEmpty } := by
  cases nb with
  | nil => constructor <;> rfl
  | cons n nb =>
    have := getWord_spec all "neighbours:".toList 'n' "eighbours:".toList (by decide) ' ' (dec n ++ nb.flatMap fun n => ' ' :: dec n) (by decide) (by decide)
    have e : (n :: nb).flatMap (fun n => ' ' :: dec n) = ' ' :: (dec n ++ nb.flatMap fun n => ' ' :: dec n) := by simp
    rw [e, this]
    exact ⟨rfl, rfl⟩

theorem length_recs (l : List IdxRec) (t : List Char) : l.length ≤ (l.flatMap printRec ++ t).length := by
  induction l with
  | nil => simp
  | cons e l ih => simp [printRec] at ih ⊢; omega

theorem length_nbs (l : List Nat) : l.length ≤ (l.flatMap fun n => ' ' :: dec n).length := by
  induction l with
  | nil => simp
  | cons e l ih => simp at ih ⊢; omega

/-- Sorted by global index, each at most once. -/
def AscG (l : List IdxRec) : Prop := l.Pairwise fun a b => a.g < b.g

theorem sort_asc {l : List IdxRec} (h : AscG l) : l.insertionSort (fun a b => a.g ≤ b.g) = l :=
  List.Pairwise.insertionSort_eq (h.imp fun h => Nat.le_of_lt h)

theorem loadIndices_text {fs : FS} {filename : List Char} {rank : Nat} {pis : List IdxRec} {nb : List Nat}
    (hf : fs (rankFile (splitFilename filename).1 rank ".idx".toList) = some (indexText pis nb))
    (hp : AscG pis) (hn : nb.Pairwise (· < ·)) : loadIndices fs filename rank [] = .ok (pis, some nb) := by
  unfold loadIndices openFile
  rw [hf]
  simp only [Res.ok_bind, List.length_nil, ne_eq, not_true_eq_false, if_false]
  have e0 : In.ofText (indexText pis nb) = gs (indexText pis nb) (indexText pis nb) := rfl
  have e1 : "neighbours:".toList ++ (nb.flatMap fun n => ' ' :: dec n) = 'n' :: ("eighbours:".toList ++ nb.flatMap fun n => ' ' :: dec n) := by
    have : "neighbours:".toList = 'n' :: "eighbours:".toList := by decide
    rw [this]; rfl
  have hl := idxLoop_print (indexText pis nb) pis ((indexText pis nb).length + 1) [] ("eighbours:".toList ++ nb.flatMap fun n => ' ' :: dec n)
    (by have := length_recs pis ("neighbours:".toList ++ nb.flatMap fun n => ' ' :: dec n); unfold indexText; omega)
  rw [← e1] at hl
  have hl' : idxLoop ((In.ofText (indexText pis nb)).rest.length + 1) [] (In.ofText (indexText pis nb)) =
      .ok ([] ++ pis, gs (indexText pis nb) ("neighbours:".toList ++ nb.flatMap fun n => ' ' :: dec n)) := hl
  rw [hl', Res.ok_bind]
  obtain ⟨w1, w2⟩ := getWord_nb (indexText pis nb) nb
  simp only [List.nil_append, sort_asc hp]
  rw [if_neg (by simp [gs]), w1, w2]
  rw [if_neg (by simp)]
  cases nb with
  | nil => simp [nbLoop]
  | cons n nb =>
    have h := nbLoop_print (indexText pis (n :: nb)) (n :: nb)
      (((n :: nb).flatMap fun n => ' ' :: dec n).length + 1) [] (by simp) (by have := length_nbs (n :: nb); omega)
    rw [setInsert_all (n :: nb) [] (by simpa using hn), List.nil_append] at h
    have h' : nbLoop (({ gs (indexText pis (n :: nb)) ((n :: nb).flatMap fun n => ' ' :: dec n) with eof := (n :: nb).isEmpty } : In).rest.length + 1) []
        { gs (indexText pis (n :: nb)) ((n :: nb).flatMap fun n => ' ' :: dec n) with eof := (n :: nb).isEmpty } = .ok (n :: nb) := h
    rw [h', Res.ok_bind]

theorem getNat_eof (s : In) (h : s.eof = true) : (getNat s).1 = none := by
  simp [getNat, formatted, h]

/-- Without the line of the neighbours an entry is read after the end of the file. -/
theorem idxLoop_cut (all : List Char) : ∀ (l : List IdxRec) (k : Nat) (acc : List IdxRec),
    idxLoop k acc (gs all (l.flatMap printRec)) = .ub := by
  intro l
  induction l with
  | nil =>
    intro k acc
    cases k with
    | zero => rfl
    | succ k =>
      rw [idxLoop, if_neg (by simp [gs])]
      have hp : peek (gs all []) = (none, { gs all [] with eof := true }) := by simp [peek, gs]
      have hr : readRec { gs all [] with eof := true } = .ub := by
        unfold readRec
        simp only [getNat_eof _ (rfl : ({ gs all [] with eof := true } : In).eof = true), need]
        rfl
      rw [List.flatMap_nil, hp]
      simp only [reduceCtorEq, if_false]
      rw [hr]; rfl
  | cons e l ih =>
    intro k acc
    cases k with
    | zero => rfl
    | succ k =>
      obtain ⟨d, ds, hd⟩ := List.exists_cons_of_ne_nil (dec_spec e.g).1
      have hdig : isDigit d = true := (dec_spec e.g).2.1 d (by rw [hd]; simp)
      have hdn : d ≠ 'n' := by
        intro e; subst e; exact absurd hdig (by decide)
      have hp : ∃ u, (e :: l).flatMap printRec = d :: u := by
        simp [printRec, hd]
      obtain ⟨u, hu⟩ := hp
      have hpk : peek (gs all ((e :: l).flatMap printRec)) = (some d, gs all ((e :: l).flatMap printRec)) := by
        rw [hu]; simp [peek, gs]
      have hr := readRec_print all e (l.flatMap printRec)
      rw [idxLoop, if_neg (by simp [gs])]
      simp only [hpk, Option.some.injEq, hdn, if_false]
      rw [List.flatMap_cons, hr, Res.ok_bind]
      exact ih k _

theorem getNat_newline (all : List Char) : (getNat (gs all ['\n'])).1 = none := by
  have : isSpace '\n' = true := by decide
  simp [getNat, formatted, gs, this]

/-- With a line break at the end a neighbour is read after the end of the file. -/
theorem nbLoop_newline (all : List Char) : ∀ (l : List Nat) (k : Nat) (nb : List Nat),
    nbLoop k nb (gs all ((l.flatMap fun n => ' ' :: dec n) ++ ['\n'])) = .ub := by
  intro l
  induction l with
  | nil =>
    intro k nb
    cases k with
    | zero => rfl
    | succ k =>
      rw [nbLoop, if_neg (by simp [gs]), List.flatMap_nil, List.nil_append]
      simp only [getNat_newline, need]
      rfl
  | cons n l ih =>
    intro k nb
    cases k with
    | zero => rfl
    | succ k =>
      rw [nbLoop, if_neg (by simp [gs])]
      have : ∃ c t, (l.flatMap fun n => ' ' :: dec n) ++ ['\n'] = c :: t ∧ isDigit c = false := by
        cases l with
        | nil => exact ⟨'\n', [], by simp, by decide⟩
        | cons m l => exact ⟨' ', _, by simp; rfl, by decide⟩
      obtain ⟨c, t, hct, hc⟩ := this
      have hg := getNat_blank all n c t hc
      have e : ((n :: l).flatMap fun n => ' ' :: dec n) ++ ['\n'] = ' ' :: (dec n ++ c :: t) := by
        rw [← hct]; simp
      rw [e]
      simp only [hg, need, Res.ok_bind]
      rw [← hct]
      exact ih k _

/-! ### Writing files -/

/-- Writing files with different names in any order. -/
theorem writes_spec (canOpen : List Char → Bool) : ∀ (ws : List (List Char × List Char)) (fs : FS), (∀ w ∈ ws, canOpen w.1 = true) →
    (ws.map Prod.fst).Nodup →
    ∃ fs', ws.foldlM (writeFile canOpen) fs = .ok fs' ∧ (∀ w ∈ ws, fs' w.1 = some w.2) ∧ ∀ n, n ∉ ws.map Prod.fst → fs' n = fs n := by
  intro ws
  induction ws with
  | nil => intro fs _ _; exact ⟨fs, rfl, by simp, fun _ _ => rfl⟩
  | cons w ws ih =>
    intro fs ho hn
    rw [List.map_cons, List.nodup_cons] at hn
    obtain ⟨fs', h1, h2, h3⟩ := ih (fun n => if n = w.1 then some w.2 else fs n) (fun x hx => ho x (by simp [hx])) hn.2
    refine ⟨fs', ?_, ?_, ?_⟩
    · rw [List.foldlM_cons, writeFile, if_pos (ho w (by simp)), Res.ok_bind]
      exact h1
    · intro x hx
      rcases List.mem_cons.1 hx with rfl | hx
      · rw [h3 _ hn.1]; simp
      · exact h2 x hx
    · intro n hnm
      rw [List.map_cons, List.mem_cons, not_or] at hnm
      rw [h3 n hnm.2, if_neg hnm.1]

end MM
end Istl
