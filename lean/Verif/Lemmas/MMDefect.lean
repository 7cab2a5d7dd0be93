import Verif.Spec.MMDefect
import Verif.Lemmas.MatrixMarketVec

/-! Banners with defects. -/

namespace Istl
namespace MM
open Bcrs MatMat

theorem lineFeedLoop_blanks (all : List Char) (c : Char) (t : List Char) (h1 : c ≠ ' ') : ∀ (n f : Nat), n < f →
    lineFeedLoop f (peek (gs all (List.replicate n ' ' ++ c :: t))).1 (peek (gs all (List.replicate n ' ' ++ c :: t))).2 =
      if c = '\n' then (true, gs all t) else (false, gs all (c :: t)) := by
  intro n
  induction n with
  | zero =>
    intro f hf
    obtain ⟨f, rfl⟩ : ∃ g, f = g + 1 := ⟨f - 1, by omega⟩
    by_cases h : c = '\n'
    · subst h; simp [peek, gs, lineFeedLoop, skipChar]
    · simp [peek, gs, lineFeedLoop, h1, h]
  | succ n ih =>
    intro f hf
    obtain ⟨f, rfl⟩ : ∃ g, f = g + 1 := ⟨f - 1, by omega⟩
    have := ih f (by omega)
    rw [← this]
    simp [List.replicate_succ, peek, gs, lineFeedLoop, skipChar]

/-- Blanks are skipped, then the next character decides. -/
theorem lineFeed_blanks (all : List Char) (c : Char) (t : List Char) (n : Nat) (h1 : c ≠ ' ') :
    lineFeed (gs all (List.replicate n ' ' ++ c :: t)) = if c = '\n' then (true, gs all t) else (false, gs all (c :: t)) := by
  have := lineFeedLoop_blanks all c t h1 n ((gs all (List.replicate n ' ' ++ c :: t)).rest.length + 1) (by simp [gs])
  rw [← this]
  rfl

theorem IsWord.cons {w : List Char} (h : IsWord w) : ∃ d ds, w = d :: ds ∧ d ≠ ' ' ∧ d ≠ '\n' := by
  obtain ⟨d, ds, hd⟩ := List.exists_cons_of_ne_nil h.1
  have := h.2 d (by rw [hd]; simp)
  refine ⟨d, ds, hd, ?_, ?_⟩ <;> rintro rfl <;> exact absurd this (by decide)

theorem tailText_cons (ws : List (Nat × List Char)) (k : Nat) (rest : List Char) :
    ∃ c t, tailText ws k ++ rest = c :: t ∧ isSpace c = true := by
  cases ws with
  | nil =>
    cases k with
    | zero => exact ⟨'\n', rest, rfl, by decide⟩
    | succ k => exact ⟨' ', List.replicate k ' ' ++ ['\n'] ++ rest, by simp [tailText, List.replicate_succ], by decide⟩
  | cons e ws =>
    obtain ⟨g, w⟩ := e
    exact ⟨' ', List.replicate g ' ' ++ (w ++ tailText ws k) ++ rest, by simp [tailText, List.replicate_succ], by decide⟩

/-- The next word of a line. -/
theorem getWord_line (all w : List Char) (hw : IsWord w) (ws : List (Nat × List Char)) (k : Nat) (rest : List Char) :
    getWord (gs all (w ++ (tailText ws k ++ rest))) = (some w, gs all (tailText ws k ++ rest)) := by
  obtain ⟨c, t, h1, h2⟩ := tailText_cons ws k rest
  obtain ⟨d, ds, hd, -⟩ := hw.cons
  rw [h1]
  exact getWord_spec all w d ds hd c t hw.2 h2

/-- The end of the line is found when there are no more words. -/
theorem lineFeed_nil (all : List Char) (k : Nat) (rest : List Char) : lineFeed (gs all (tailText [] k ++ rest)) = (true, gs all rest) := by
  have := lineFeed_blanks all '\n' rest k (by decide)
  simpa [tailText] using this

theorem lineFeed_word (all : List Char) (g : Nat) (w : List Char) (hw : IsWord w) (ws : List (Nat × List Char)) (k : Nat) (rest : List Char) :
    lineFeed (gs all (tailText ((g, w) :: ws) k ++ rest)) = (false, gs all (w ++ (tailText ws k ++ rest))) := by
  obtain ⟨d, ds, rfl, h1, h2⟩ := hw.cons
  have := lineFeed_blanks all d (ds ++ (tailText ws k ++ rest)) (g + 1) h1
  rw [if_neg h2] at this
  simpa [tailText] using this

theorem newline_not_word {w : List Char} (hw : IsWord w) : '\n' ∉ w := fun h => absurd (hw.2 _ h) (by decide)

/-- A line of words has one line break, at its end. -/
theorem tailText_line (ws : List (Nat × List Char)) (hws : ∀ e ∈ ws, IsWord e.2) (k : Nat) :
    ∃ x, tailText ws k = x ++ ['\n'] ∧ '\n' ∉ x := by
  induction ws with
  | nil =>
    refine ⟨List.replicate k ' ', rfl, ?_⟩
    intro h
    exact absurd (List.eq_of_mem_replicate h) (by decide)
  | cons e ws ih =>
    obtain ⟨x, h1, h2⟩ := ih fun e he => hws e (List.mem_cons_of_mem _ he)
    obtain ⟨g, w⟩ := e
    refine ⟨List.replicate (g + 1) ' ' ++ (w ++ x), by simp [tailText, h1], ?_⟩
    rw [List.mem_append, List.mem_append]
    rintro (h | h | h)
    · exact absurd (List.eq_of_mem_replicate h) (by decide)
    · exact newline_not_word (hws (g, w) (by simp)) h
    · exact h2 h

theorem ignoreLine_tail (all : List Char) (ws : List (Nat × List Char)) (hws : ∀ e ∈ ws, IsWord e.2) (k : Nat) (rest : List Char) :
    ignoreLine (gs all (tailText ws k ++ rest)) = gs all rest := by
  obtain ⟨x, h1, h2⟩ := tailText_line ws hws k
  rw [h1, List.append_assoc]
  exact ignoreLine_text all x rest h2

theorem structureNamed_some {w : List Char} {st : Structure} (h : w.map Char.toLower = st.name) : structureNamed w = some st := by
  unfold structureNamed; rw [h]; cases st <;> decide
theorem structureNamed_none {w : List Char} (h : ∀ st : Structure, w.map Char.toLower ≠ st.name) : structureNamed w = none :=
  List.find?_eq_none.2 fun st _ => by simpa using (h st).symm
theorem ctypeNamed_some {w : List Char} {ct : CType} (h : w.map Char.toLower = ct.name) : ctypeNamed w = some ct := by
  unfold ctypeNamed; rw [h]; cases ct <;> decide
theorem ctypeNamed_none {w : List Char} (h : ∀ ct : CType, w.map Char.toLower ≠ ct.name) : ctypeNamed w = none :=
  List.find?_eq_none.2 fun st _ => by simpa using (h st).symm
theorem mtypeNamed_some {w : List Char} {ty : MType} (h : w.map Char.toLower = ty.name) : mtypeNamed w = some ty := by
  unfold mtypeNamed; rw [h]; cases ty <;> decide
theorem mtypeNamed_none {w : List Char} (h : ∀ ty : MType, w.map Char.toLower ≠ ty.name) : mtypeNamed w = none :=
  List.find?_eq_none.2 fun st _ => by simpa using (h st).symm

/-- What a part of the banner reader must give. -/
def Got (all rest : List Char) (h : Header) (good : Prop) (x : Bool × Header × In) : Prop :=
  x.2.1 = h ∧ (x.1 = true ↔ good) ∧ (x.1 = true → x.2.2 = gs all rest)

theorem readStructure_line (all rest buf : List Char) (hr : rest ≠ []) (h : Header) (w : List Char) (hw : IsWord w) (ws : List (Nat × List Char))
    (hws : ∀ e ∈ ws, IsWord e.2) (k : Nat) :
    Got all rest (saidStructure h (w :: ws.map Prod.snd)) ((structureNamed w).isSome = true) (readStructure h buf (gs all (w ++ (tailText ws k ++ rest)))) := by
  obtain ⟨a, rest, rfl⟩ := List.exists_cons_of_ne_nil hr
  have e := getWord_line all w hw ws k (a :: rest)
  have hi := ignoreLine_tail all ws hws k (a :: rest)
  have hp : (peek (gs all (a :: rest))).2 = gs all (a :: rest) := by simp [peek, gs]
  unfold readStructure
  simp only [e, hi, hp, Option.getD_some, lower]
  simp only [saidStructure]
  by_cases h1 : w.map Char.toLower = "general".toList
  · rw [if_pos h1, structureNamed_some (show w.map Char.toLower = Structure.general.name from h1)]
    exact ⟨rfl, by simp, fun _ => rfl⟩
  by_cases h2 : w.map Char.toLower = "hermitian".toList
  · rw [if_neg h1, if_pos h2, structureNamed_some (show w.map Char.toLower = Structure.hermitian.name from h2)]
    exact ⟨rfl, by simp, fun _ => rfl⟩
  by_cases h3 : w.map Char.toLower = "symmetric".toList
  · rw [if_neg h1, if_neg h2, if_pos h3, structureNamed_some (show w.map Char.toLower = Structure.symmetric.name from h3)]
    exact ⟨rfl, by simp, fun _ => rfl⟩
  by_cases h4 : w.map Char.toLower = "skew-symmetric".toList
  · rw [if_neg h1, if_neg h2, if_neg h3, if_pos h4, structureNamed_some (show w.map Char.toLower = Structure.skewSymmetric.name from h4)]
    exact ⟨rfl, by simp, fun _ => rfl⟩
  rw [if_neg h1, if_neg h2, if_neg h3, if_neg h4, structureNamed_none (fun x => match x with | .general => h1 | .symmetric => h3 | .skewSymmetric => h4 | .hermitian => h2)]
  exact ⟨rfl, by simp, by simp⟩

theorem readCType_line (all rest buf : List Char) (hr : rest ≠ []) (h : Header) (w : List Char) (hw : IsWord w) (ws : List (Nat × List Char))
    (hws : ∀ e ∈ ws, IsWord e.2) (k : Nat) :
    Got all rest (saidCType h (w :: ws.map Prod.snd))
      ((ctypeNamed w).isSome = true ∧ ∃ w4 ws', ws.map Prod.snd = w4 :: ws' ∧ (structureNamed w4).isSome = true)
      (readCType h buf (gs all (w ++ (tailText ws k ++ rest)))) := by
  have e := getWord_line all w hw ws k rest
  have go : ∀ (h' : Header) b, Got all rest (saidStructure h' (ws.map Prod.snd)) (∃ w4 ws', ws.map Prod.snd = w4 :: ws' ∧ (structureNamed w4).isSome = true)
      (if (lineFeed (gs all (tailText ws k ++ rest))).1 = true then (false, h', (lineFeed (gs all (tailText ws k ++ rest))).2)
        else readStructure h' b (lineFeed (gs all (tailText ws k ++ rest))).2) := by
    intro h' b
    cases ws with
    | nil => rw [lineFeed_nil]; simp [Got, saidStructure]
    | cons x ws =>
      obtain ⟨g, w4⟩ := x
      rw [lineFeed_word all g w4 (hws (g, w4) (by simp))]
      have := readStructure_line all rest b hr h' w4 (hws (g, w4) (by simp)) ws (fun e he => hws e (List.mem_cons_of_mem _ he)) k
      simpa using this
  unfold readCType
  simp only [e, Option.getD_some, lower]
  simp only [saidCType]
  by_cases h1 : w.map Char.toLower = "integer".toList
  · rw [if_pos h1, ctypeNamed_some (show w.map Char.toLower = CType.integer.name from h1)]
    simpa only [Option.isSome_some, true_and] using go _ _
  by_cases h2 : w.map Char.toLower = "real".toList
  · rw [if_neg h1, if_pos h2, ctypeNamed_some (show w.map Char.toLower = CType.double.name from h2)]
    simpa only [Option.isSome_some, true_and] using go _ _
  by_cases h3 : w.map Char.toLower = "complex".toList
  · rw [if_neg h1, if_neg h2, if_pos h3, ctypeNamed_some (show w.map Char.toLower = CType.complex.name from h3)]
    simpa only [Option.isSome_some, true_and] using go _ _
  by_cases h4 : w.map Char.toLower = "pattern".toList
  · rw [if_neg h1, if_neg h2, if_neg h3, if_pos h4, ctypeNamed_some (show w.map Char.toLower = CType.pattern.name from h4)]
    simpa only [Option.isSome_some, true_and] using go _ _
  rw [if_neg h1, if_neg h2, if_neg h3, if_neg h4, ctypeNamed_none (fun x => match x with | .integer => h1 | .double => h2 | .complex => h3 | .pattern => h4)]
  exact ⟨rfl, by simp, by simp⟩

theorem readType_line (all rest buf : List Char) (hr : rest ≠ []) (h : Header) (w : List Char) (hw : IsWord w) (ws : List (Nat × List Char))
    (hws : ∀ e ∈ ws, IsWord e.2) (k : Nat) :
    Got all rest (saidType h (w :: ws.map Prod.snd))
      ((mtypeNamed w).isSome = true ∧ ∃ w3 w4 ws', ws.map Prod.snd = w3 :: w4 :: ws' ∧ (ctypeNamed w3).isSome = true ∧ (structureNamed w4).isSome = true)
      (readType h buf (gs all (w ++ (tailText ws k ++ rest)))) := by
  have e := getWord_line all w hw ws k rest
  have go : ∀ (h' : Header) b, Got all rest (saidCType h' (ws.map Prod.snd))
      (∃ w3 w4 ws', ws.map Prod.snd = w3 :: w4 :: ws' ∧ (ctypeNamed w3).isSome = true ∧ (structureNamed w4).isSome = true)
      (if (lineFeed (gs all (tailText ws k ++ rest))).1 = true then (false, h', (lineFeed (gs all (tailText ws k ++ rest))).2)
        else readCType h' b (lineFeed (gs all (tailText ws k ++ rest))).2) := by
    intro h' b
    cases ws with
    | nil => rw [lineFeed_nil]; simp [Got, saidCType]
    | cons x ws =>
      obtain ⟨g, w3⟩ := x
      rw [lineFeed_word all g w3 (hws (g, w3) (by simp))]
      obtain ⟨g1, g2, g3⟩ := readCType_line all rest b hr h' w3 (hws (g, w3) (by simp)) ws (fun e he => hws e (List.mem_cons_of_mem _ he)) k
      simp only [Bool.false_eq_true, if_false]
      refine ⟨g1, g2.trans ?_, g3⟩
      constructor
      · rintro ⟨a, w4, ws', b, c⟩; exact ⟨w3, w4, ws', by simp [b], a, c⟩
      · rintro ⟨w3', w4, ws', b, c, d⟩
        simp only [List.map_cons, List.cons.injEq] at b
        obtain ⟨rfl, b⟩ := b
        exact ⟨c, w4, ws', b, d⟩
  unfold readType
  simp only [e, Option.getD_some, lower]
  simp only [saidType]
  by_cases h1 : w.map Char.toLower = "array".toList
  · rw [if_pos h1, mtypeNamed_some (show w.map Char.toLower = MType.array.name from h1)]
    simpa only [Option.isSome_some, true_and] using go _ _
  by_cases h2 : w.map Char.toLower = "coordinate".toList
  · rw [if_neg h1, if_pos h2, mtypeNamed_some (show w.map Char.toLower = MType.coordinate.name from h2)]
    simpa only [Option.isSome_some, true_and] using go _ _
  rw [if_neg h1, if_neg h2, mtypeNamed_none (fun x => match x with | .array => h1 | .coordinate => h2)]
  exact ⟨rfl, by simp, by simp⟩

theorem readBanner_line (all rest : List Char) (hr : rest ≠ []) (l : WordLine) (hl : l.Ok) (hp : l.first.head? = some '%') :
    Got all rest l.said l.Understood (readBanner (gs all (l.text ++ rest))) := by
  obtain ⟨w, ws, k⟩ := l
  obtain ⟨hw, hws⟩ := hl
  simp only at hw hws hp
  have e := getWord_line all w hw ws k rest
  unfold readBanner
  simp only [WordLine.text, List.append_assoc, e, Option.getD_some, hp, ne_eq, not_true, if_false]
  unfold WordLine.said WordLine.Understood
  simp only
  by_cases h1 : w = "%%MatrixMarket".toList
  · rw [if_pos h1, if_neg (not_not.2 h1)]
    simp only [h1, true_and]
    cases ws with
    | nil => rw [lineFeed_nil]; simp [Got]
    | cons x ws =>
      obtain ⟨g, w1⟩ := x
      have hw1 := hws (g, w1) (by simp)
      have hws' : ∀ e ∈ ws, IsWord e.2 := fun e he => hws e (List.mem_cons_of_mem _ he)
      rw [lineFeed_word all g w1 hw1]
      have e1 := getWord_line all w1 hw1 ws k rest
      simp only [e1, Option.getD_some, Bool.false_eq_true, if_false, List.map_cons]
      by_cases h2 : w1 = "matrix".toList
      · rw [if_pos h2, if_neg (not_not.2 h2)]
        cases ws with
        | nil => rw [lineFeed_nil]; simp [Got, saidType]
        | cons y ws =>
          obtain ⟨g', w2⟩ := y
          rw [lineFeed_word all g' w2 (hws' (g', w2) (by simp))]
          obtain ⟨g1, g2, g3⟩ := readType_line all rest w1 hr {} w2 (hws' (g', w2) (by simp)) ws (fun e he => hws' e (List.mem_cons_of_mem _ he)) k
          simp only [Bool.false_eq_true, if_false]
          refine ⟨g1, g2.trans ?_, g3⟩
          constructor
          · rintro ⟨a, w3, w4, ws', b, c, d⟩; exact ⟨w1, w2, w3, w4, ws', by simp [b], h2, a, c, d⟩
          · rintro ⟨w1', w2', w3, w4, ws', b, -, a, c, d⟩
            simp only [List.map_cons, List.cons.injEq] at b
            obtain ⟨-, rfl, b⟩ := b
            exact ⟨a, w3, w4, ws', b, c, d⟩
      · rw [if_neg h2, if_pos h2]
        simp only [Got, Bool.false_eq_true, false_iff, false_implies, and_true, true_and]
        rintro ⟨w1', w2', w3, w4, ws', b, a, -⟩
        simp only [List.cons.injEq] at b
        exact h2 (b.1.trans a)
  · rw [if_neg h1, if_pos h1]
    refine ⟨rfl, ⟨fun h => (by cases h), ?_⟩, fun h => (by cases h)⟩
    rintro ⟨_, _, _, _, _, h, -⟩
    exact absurd h h1

/-- Whatever the preamble, what is said there is what is found, and reading goes on at the size line. -/
theorem readHeader_preamble (P : Preamble) (hP : P.Ok) (d : Char) (rest : List Char) (hd : isDigit d = true) :
    (readHeader (In.ofText (P.text ++ d :: rest))).1 = P.said ∧
      skipComments (readHeader (In.ofText (P.text ++ d :: rest))).2 = gs (P.text ++ d :: rest) (d :: rest) ∧
      ((readBanner (In.ofText (P.text ++ d :: rest))).1 = true ↔ P.Complete) := by
  have n1 : d ≠ '%' := digit_ne hd (by decide)
  have n2 : d ≠ ' ' := digit_ne hd (by decide)
  have n3 : d ≠ '\n' := digit_ne hd (by decide)
  cases P with
  | nothing =>
    have hb : ∃ s, readBanner (gs (d :: rest) (d :: rest)) = (false, {}, s) := by
      have hsp := isSpace_of_digit hd
      unfold readBanner
      refine ⟨(getWord (gs (d :: rest) (d :: rest))).2, ?_⟩
      have : ((getWord (gs (d :: rest) (d :: rest))).1.getD []).head? ≠ some '%' := by
        simp [getWord, formatted, gs, hsp, n1]
      simp only [if_pos this]
    obtain ⟨s, hb⟩ := hb
    have hk := skipComments_start (d :: rest) [] d rest n1 n2 n3 (by simp)
    simp only [List.flatMap_nil, List.nil_append] at hk
    simp only [Preamble.text, List.nil_append, readHeader, show In.ofText (d :: rest) = gs (d :: rest) (d :: rest) from rfl, hb]
    exact ⟨rfl, hk, by simp [Preamble.Complete]⟩
  | line l comments =>
    obtain ⟨h1, h2, h3⟩ := hP
    set t := (Preamble.line l comments).text ++ d :: rest with ht
    have ht' : t = l.text ++ (comments.flatMap commentText ++ d :: rest) := by simp [ht, Preamble.text]
    obtain ⟨g1, g2, g3⟩ := readBanner_line t (comments.flatMap commentText ++ d :: rest) (by simp) l h1 h2
    rw [← ht'] at g1 g2 g3
    have hk := skipComments_start t comments d rest n1 n2 n3 h3
    have hs : skipComments (gs t t) = gs t (d :: rest) := by
      obtain ⟨x, e1, e2⟩ := tailText_line l.more h1.2 l.trail
      obtain ⟨f, fs, hf⟩ := List.exists_cons_of_ne_nil h1.1.1
      have hf' : f = '%' := by rw [hf] at h2; simpa using h2
      have : t = (((fs ++ x) :: comments)).flatMap commentText ++ d :: rest := by
        rw [ht', WordLine.text, e1, hf, hf']
        simp [commentText]
      rw [show gs t t = gs t (((fs ++ x) :: comments).flatMap commentText ++ d :: rest) by rw [← this]]
      refine skipComments_start t _ d rest n1 n2 n3 ?_
      intro y hy
      rcases List.mem_cons.1 hy with rfl | hy
      · rw [List.mem_append]
        rintro (h | h)
        · exact newline_not_word h1.1 (by rw [hf]; exact List.mem_cons_of_mem _ h)
        · exact e2 h
      · exact h3 y hy
    simp only [show In.ofText t = gs t t from rfl, readHeader]
    refine ⟨?_, ?_, g2⟩
    · split <;> exact g1
    · split
      · rename_i hb; rw [g3 hb]; exact hk
      · exact hs

end MM
end Istl
