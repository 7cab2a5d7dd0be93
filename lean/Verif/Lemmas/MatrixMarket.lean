import Verif.Lemmas.Stream
import Verif.Lemmas.MatMat
import Verif.Lemmas.Gsetc

/-! Reading the entries of a coordinate file. -/

namespace Istl
namespace MM
open Bcrs MatMat
variable {K : Type} [Zero K] [Neg K]

/-- The container of entries after the entries `L`. -/
structure RowsOK (rows : List (List (Nat × K))) (N : Nat) (L : List (Nat × Nat × K)) : Prop where
  len : rows.length = N
  asc : ∀ i (h : i < rows.length), Row.Asc (rows[i])
  mem : ∀ i (h : i < rows.length) (j : Nat) (v : K), (j, v) ∈ rows[i] ↔ firstAt L i j = some v

omit [Zero K] [Neg K] in
theorem setAdd_asc (j : Nat) (v : K) (l : List (Nat × K)) (h : Row.Asc l) : Row.Asc (setAdd j v l) := by
  unfold setAdd
  split
  · exact h
  · rename_i hno
    have hno' : ∀ e ∈ l, e.1 ≠ j := fun e he h => hno (List.any_eq_true.2 ⟨e, he, by simpa using h⟩)
    rw [Gsetc.takeWhile_lt (r := l) h, Gsetc.dropWhile_lt (r := l) h]
    unfold Row.Asc at h ⊢
    rw [List.map_append, List.map_cons, List.pairwise_append]
    have sub1 := (List.Sublist.map Prod.fst (List.filter_sublist (l := l) (p := fun e => decide (e.1 < j))))
    have sub2 := (List.Sublist.map Prod.fst (List.filter_sublist (l := l) (p := fun e => decide (j ≤ e.1))))
    refine ⟨h.sublist sub1, ?_, ?_⟩
    · rw [List.pairwise_cons]
      refine ⟨?_, h.sublist sub2⟩
      intro x hx
      obtain ⟨e, he, rfl⟩ := List.mem_map.1 hx
      have he' := List.mem_filter.1 he
      have := hno' e he'.1
      have h2 : j ≤ e.1 := by simpa using he'.2
      omega
    · intro x hx y hy
      obtain ⟨e, he, rfl⟩ := List.mem_map.1 hx
      have h1 : e.1 < j := by simpa using (List.mem_filter.1 he).2
      rcases List.mem_cons.1 hy with rfl | hy
      · exact h1
      · obtain ⟨e', he', rfl⟩ := List.mem_map.1 hy
        have h2 : j ≤ e'.1 := by simpa using (List.mem_filter.1 he').2
        omega

omit [Zero K] [Neg K] in
theorem mem_setAdd (j : Nat) (v : K) (l : List (Nat × K)) (h : Row.Asc l) (k : Nat) (x : K) :
    (k, x) ∈ setAdd j v l ↔ (k, x) ∈ l ∨ (k = j ∧ x = v ∧ ∀ y, (j, y) ∉ l) := by
  unfold setAdd
  split
  · rename_i hany
    obtain ⟨e, he, hj⟩ := List.any_eq_true.1 hany
    have hj' : e.1 = j := by simpa using hj
    constructor
    · exact fun h => .inl h
    · rintro (h | ⟨_, _, h⟩)
      · exact h
      · exact absurd (by rw [← hj']; exact he) (h e.2)
  · rename_i hno
    have hno' : ∀ e ∈ l, e.1 ≠ j := fun e he h => hno (List.any_eq_true.2 ⟨e, he, by simpa using h⟩)
    rw [Gsetc.takeWhile_lt (r := l) h, Gsetc.dropWhile_lt (r := l) h, List.mem_append, List.mem_cons, List.mem_filter, List.mem_filter]
    constructor
    · rintro (⟨h, _⟩ | h | ⟨h, _⟩)
      · exact .inl h
      · obtain ⟨rfl, rfl⟩ := Prod.mk.inj h
        exact .inr ⟨rfl, rfl, fun y hy => hno' _ hy rfl⟩
      · exact .inl h
    · rintro (h | ⟨rfl, rfl, _⟩)
      · by_cases hk : k < j
        · exact .inl ⟨h, by simpa using hk⟩
        · exact .inr (.inr ⟨h, by simp; omega⟩)
      · exact .inr (.inl rfl)

omit [Zero K] [Neg K] in
theorem firstAt_snoc (L : List (Nat × Nat × K)) (i j : Nat) (v : K) (i' j' : Nat) :
    firstAt (L ++ [(i, j, v)]) i' j' = (firstAt L i' j').or (if i = i' ∧ j = j' then some v else none) := by
  unfold firstAt
  rw [List.find?_append]
  cases hL : List.find? (fun t : Nat × Nat × K => decide (t.1 = i' ∧ t.2.1 = j')) L with
  | some t => simp
  | none =>
    by_cases h : i = i' ∧ j = j'
    · simp [h]
    · simp [h]

omit [Zero K] [Neg K] in
theorem rowsAdd_spec {rows : List (List (Nat × K))} {N : Nat} {L : List (Nat × Nat × K)} (R : RowsOK rows N L) {i : Nat} (hi : i < N) (j : Nat) (v : K) :
    ∃ rows', rowsAdd rows i j v = .ok rows' ∧ RowsOK rows' N (L ++ [(i, j, v)]) := by
  have hi' : i < rows.length := by rw [R.len]; exact hi
  refine ⟨rows.set i (setAdd j v rows[i]), ?_, ?_, ?_, ?_⟩
  · unfold rowsAdd
    rw [show rd rows i = .ok rows[i] by simp [rd, hi'], Res.ok_bind]
    simp [wr, hi']
  · simp [R.len]
  · intro k hk
    rw [List.getElem_set]
    split
    · exact setAdd_asc _ _ _ (R.asc i hi')
    · exact R.asc k (by simpa using hk)
  · intro k hk j' x
    have hk' : k < rows.length := by simpa using hk
    rw [List.getElem_set, firstAt_snoc]
    by_cases e : i = k
    · subst e
      rw [if_pos rfl, mem_setAdd _ _ _ (R.asc i hi'), R.mem i hi']
      by_cases ej : j = j'
      · subst ej
        cases hf : firstAt L i j with
        | some y =>
          simp only [Option.some_or, Option.some.injEq, true_and]
          constructor
          · rintro (h | ⟨_, h⟩)
            · exact h
            · exact absurd ((R.mem i hi' j y).2 hf) (h y)
          · exact fun h => .inl h
        | none =>
          simp only [Option.none_or, true_and, if_true, Option.some.injEq, reduceCtorEq, false_or]
          constructor
          · rintro ⟨rfl, _⟩; rfl
          · rintro rfl
            exact ⟨rfl, fun y hy => by rw [R.mem i hi', hf] at hy; simp at hy⟩
      · have hne : ¬ (j' = j) := fun h => ej h.symm
        simp [ej, hne]
    · rw [if_neg e, R.mem k hk']
      simp [e]

/-- The reader of numbers understands what the printer writes. -/
def Reads (value : In → Option K × In) (print : K → List Char) : Prop :=
  ∀ all v t, value (gs all (' ' :: (print v ++ '\n' :: t))) = (some v, gs all ('\n' :: t))

omit [Neg K] in
theorem reads_getVal {cd : Codec K} (h : cd.Lossless) : Reads (getVal cd) cd.print := fun all v t =>
  getVal_print h all [' '] v '\n' t (by decide) (by decide)

omit [Neg K] in
theorem reads_getComplex {cd : Codec K} (h : cd.Lossless) :
    Reads (K := K × K) (getComplex cd) (fun z => cd.print z.1 ++ ' ' :: cd.print z.2) := fun all v t => by
  have e1 := getVal_print h all [' '] v.1 ' ' (cd.print v.2 ++ '\n' :: t) (by decide) (by decide)
  have e2 := getVal_print h all [' '] v.2 '\n' t (by decide) (by decide)
  simp only [List.append_assoc, List.cons_append, List.nil_append] at e1 e2 ⊢
  unfold getComplex
  simp only [e1, e2, Option.getD_some]

theorem dec_cons (n : Nat) : ∃ d ds, dec n = d :: ds ∧ isDigit d = true := by
  obtain ⟨h1, h2, _⟩ := dec_spec n
  obtain ⟨d, ds, hd⟩ := List.exists_cons_of_ne_nil h1
  exact ⟨d, ds, hd, h2 d (by rw [hd]; simp)⟩

theorem digit_ne {d c : Char} (h : isDigit d = true) (hc : isDigit c = false) : d ≠ c := by
  rintro rfl; rw [h] at hc; simp at hc

theorem readLoop_tail {value : In → Option K × In} {print : K → List Char} (hv : Reads value print) (st : Structure) (conj : K → K) (N : Nat)
    (all tl : List Char) : ∀ (ls : List (Line K)) (pre : List Char) (rows : List (List (Nat × K))) (L : List (Nat × Nat × K)),
    (pre = [] ∨ pre = ['\n']) → RowsOK rows N L → (∀ l ∈ ls, ∀ x ∈ l.comments, '\n' ∉ x) →
    (∀ t ∈ allEntries st conj ls, t.1 < N) →
    ∃ s' rows', readLoop value st conj ls.length (gs all (pre ++ (ls.flatMap (Line.text print) ++ tl))) rows = .ok (s', rows') ∧
      RowsOK rows' N (L ++ allEntries st conj ls) ∧ (s' = gs all tl ∨ s' = gs all ('\n' :: tl)) := by
  intro ls
  induction ls with
  | nil =>
    intro pre rows L hpre R _ _
    refine ⟨_, rows, rfl, by simpa [allEntries] using R, ?_⟩
    rcases hpre with rfl | rfl
    · exact .inl rfl
    · exact .inr rfl
  | cons l ls ih =>
    intro pre rows L hpre R hc hN
    -- where the characters are
    set tail := ls.flatMap (Line.text print) ++ tl with htail
    have htext : (l :: ls).flatMap (Line.text print) ++ tl =
        l.comments.flatMap commentText ++ (dec (l.i + 1) ++ ' ' :: (dec (l.j + 1) ++ ' ' :: (print l.v ++ '\n' :: tail))) := by
      simp [Line.text, htail]
    obtain ⟨d, ds, hd, hdig⟩ := dec_cons (l.i + 1)
    have hcm : ∀ x ∈ l.comments, '\n' ∉ x := hc l (by simp)
    have hsk : skipComments (gs all (pre ++ ((l :: ls).flatMap (Line.text print) ++ tl))) =
        gs all (dec (l.i + 1) ++ ' ' :: (dec (l.j + 1) ++ ' ' :: (print l.v ++ '\n' :: tail))) := by
      rw [htext, hd]
      rcases hpre with rfl | rfl
      · exact skipComments_start all _ d _ (digit_ne hdig (by decide)) (digit_ne hdig (by decide)) (digit_ne hdig (by decide)) hcm
      · exact skipComments_newline all _ d _ (digit_ne hdig (by decide)) hcm
    have g1 := getNat_dec all [] (l.i + 1) ' ' (dec (l.j + 1) ++ ' ' :: (print l.v ++ '\n' :: tail)) (by simp) (by decide)
    have g2 := getNat_dec all [' '] (l.j + 1) ' ' (print l.v ++ '\n' :: tail) (by decide) (by decide)
    have g3 := hv all l.v tail
    simp only [List.nil_append, List.cons_append] at g1 g2 g3
    have hp : ∀ n, pred64 (n + 1) = n := fun n => by simp [pred64]
    have hNl : ∀ t ∈ Line.entries st conj l, t.1 < N := fun t ht => hN t (by
      unfold allEntries; rw [List.flatMap_cons]; exact List.mem_append_left _ ht)
    have hi : l.i < N := hNl (l.i, l.j, l.v) (by simp [Line.entries])
    obtain ⟨rows1, e1, R1⟩ := rowsAdd_spec R hi l.j l.v
    -- the mirrored entry
    obtain ⟨rows2, e2, R2⟩ : ∃ rows2, (if l.i = l.j then Res.ok rows1 else fixup st conj l.i l.j l.v rows1) = .ok rows2 ∧
        RowsOK rows2 N (L ++ Line.entries st conj l) := by
      by_cases hij : l.i = l.j
      · refine ⟨rows1, by rw [if_pos hij], ?_⟩
        simpa [Line.entries, hij] using R1
      · rw [if_neg hij]
        cases st with
        | general => exact ⟨rows1, rfl, by simpa [Line.entries, hij] using R1⟩
        | symmetric =>
          have hj : l.j < N := hNl (l.j, l.i, l.v) (by simp [Line.entries, hij])
          obtain ⟨rows2, f, R2⟩ := rowsAdd_spec R1 hj l.i l.v
          exact ⟨rows2, f, by simpa [Line.entries, hij] using R2⟩
        | skewSymmetric =>
          have hj : l.j < N := hNl (l.j, l.i, -l.v) (by simp [Line.entries, hij])
          obtain ⟨rows2, f, R2⟩ := rowsAdd_spec R1 hj l.i (-l.v)
          exact ⟨rows2, f, by simpa [Line.entries, hij] using R2⟩
        | hermitian =>
          have hj : l.j < N := hNl (l.j, l.i, conj l.v) (by simp [Line.entries, hij])
          obtain ⟨rows2, f, R2⟩ := rowsAdd_spec R1 hj l.i (conj l.v)
          exact ⟨rows2, f, by simpa [Line.entries, hij] using R2⟩
    obtain ⟨s', rows', e3, R3, hs'⟩ := ih ['\n'] rows2 _ (.inr rfl) R2 (fun l' h' => hc l' (List.mem_cons_of_mem _ h'))
      (fun t ht => hN t (by unfold allEntries; rw [List.flatMap_cons]; exact List.mem_append_right _ ht))
    refine ⟨s', rows', ?_, by
      have : allEntries st conj (l :: ls) = Line.entries st conj l ++ allEntries st conj ls := by simp [allEntries]
      rw [this, ← List.append_assoc]; exact R3, hs'⟩
    rw [List.length_cons]
    unfold readLoop
    simp only [hsk, g1, g2, g3, hp, Option.getD_some]
    rw [e1, Res.ok_bind]
    by_cases hij : l.i = l.j
    · rw [if_pos hij] at e2 ⊢
      obtain rfl := Res.ok.inj e2
      exact e3
    · rw [if_neg hij] at e2 ⊢
      rw [e2, Res.ok_bind]
      exact e3

theorem readLoop_spec {value : In → Option K × In} {print : K → List Char} (hv : Reads value print) (st : Structure) (conj : K → K) (N : Nat)
    (all : List Char) (ls : List (Line K)) (pre : List Char) (rows : List (List (Nat × K))) (L : List (Nat × Nat × K))
    (hpre : pre = [] ∨ pre = ['\n']) (R : RowsOK rows N L) (hc : ∀ l ∈ ls, ∀ x ∈ l.comments, '\n' ∉ x)
    (hN : ∀ t ∈ allEntries st conj ls, t.1 < N) :
    ∃ s' rows', readLoop value st conj ls.length (gs all (pre ++ ls.flatMap (Line.text print))) rows = .ok (s', rows') ∧
      RowsOK rows' N (L ++ allEntries st conj ls) ∧ (s' = gs all [] ∨ s' = gs all ['\n']) := by
  have := readLoop_tail hv st conj N all [] ls pre rows L hpre R hc hN
  simpa only [List.append_nil] using this

omit [Zero K] [Neg K] in
theorem readLoop_add [Zero K] [Neg K] (value : In → Option K × In) (st : Structure) (conj : K → K) (b : Nat) : ∀ (a : Nat) (s : In) (rows : List (List (Nat × K))),
    readLoop value st conj (a + b) s rows = (readLoop value st conj a s rows >>= fun x => readLoop value st conj b x.1 x.2) := by
  intro a
  induction a with
  | zero => intro s rows; rw [Nat.zero_add]; rfl
  | succ a ih =>
    intro s rows
    rw [show a + 1 + b = (a + b) + 1 by omega]
    simp only [readLoop]
    generalize hg : getNat (skipComments s) = g
    obtain ⟨g1, g2⟩ := g
    cases g1 with
    | none => rfl
    | some row1 =>
      simp only [ih]
      generalize rowsAdd rows (pred64 row1) (pred64 ((getNat g2).1.getD 0)) ((value (getNat g2).2).1.getD 0) = q
      cases q with
      | ok q =>
        simp only [Res.ok_bind]
        split
        · rfl
        · generalize fixup st conj (pred64 row1) (pred64 ((getNat g2).1.getD 0)) ((value (getNat g2).2).1.getD 0) q = q2
          cases q2 <;> rfl
      | throw e => rfl
      | ub => rfl

/-- A stream that has failed stays failed and gives no number. -/
theorem getNat_failed (s : In) (h : s.fail = true) : (getNat (skipComments s)).1 = none := by
  have h1 : ∀ s : In, s.fail = true → (lineFeed s).2.fail = true := by
    intro s h
    unfold lineFeed
    split
    · exact h
    · simp [peek, h, lineFeedLoop]
  have h2 : (skipComments s).fail = true := by
    unfold skipComments
    simp only [skipLoop]
    simp [peek, h1 s h]
  unfold getNat formatted
  simp [h2]

/-- At the end of the file there is no number. -/
theorem getNat_end (all : List Char) (s : In) (h : s = gs all [] ∨ s = gs all ['\n']) : (getNat (skipComments s)).1 = none := by
  rcases h with rfl | rfl <;>
    simp [skipComments, lineFeed, lineFeedLoop, skipLoop, gs, peek, skipChar, getNat, formatted]

theorem readLoop_none (value : In → Option K × In) (st : Structure) (conj : K → K) (k : Nat) (s : In) (rows : List (List (Nat × K)))
    (h : (getNat (skipComments s)).1 = none) : readLoop value st conj (k + 1) s rows = .ub := by
  simp only [readLoop, h]

end MM
end Istl
