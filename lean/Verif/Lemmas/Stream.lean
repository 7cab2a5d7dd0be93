import Verif.Spec.MatrixMarket
import Mathlib.Tactic.Linarith

/-! Reading what has been written. -/

namespace Istl
namespace MM

theorem digit_toNat {d : Nat} (h : d < 10) : (Char.ofNat (48 + d)).toNat = 48 + d := by
  have : d = 0 ∨ d = 1 ∨ d = 2 ∨ d = 3 ∨ d = 4 ∨ d = 5 ∨ d = 6 ∨ d = 7 ∨ d = 8 ∨ d = 9 := by omega
  rcases this with rfl | rfl | rfl | rfl | rfl | rfl | rfl | rfl | rfl | rfl <;> rfl

theorem isDigit_digit {d : Nat} (h : d < 10) : isDigit (Char.ofNat (48 + d)) = true := by
  unfold isDigit; rw [digit_toNat h]; simp; omega

theorem isSpace_of_digit {c : Char} (h : isDigit c = true) : isSpace c = false := by
  have : 48 ≤ c.toNat ∧ c.toNat ≤ 57 := by simpa [isDigit] using h
  have e : ∀ d : Char, d.toNat < 48 → (decide (c = d)) = false := by
    intro d hd
    simp only [decide_eq_false_iff_not]
    intro h; subst h; omega
  simp only [isSpace, e ' ' (by decide), e '\n' (by decide), e '\t' (by decide), e '\r' (by decide)]
  simp; omega

/-- all digits, at least one, and the right number -/
theorem decAux_spec : ∀ (f n : Nat) (acc : List Char), n < f →
    ∃ ds, decAux f n acc = ds ++ acc ∧ ds ≠ [] ∧ (∀ c ∈ ds, isDigit c = true) ∧
      ∀ k, ds.foldl (fun m c => 10 * m + (c.toNat - 48)) k = k * 10 ^ ds.length + n := by
  intro f
  induction f with
  | zero => intro n acc h; omega
  | succ f ih =>
    intro n acc h
    unfold decAux
    by_cases hn : n < 10
    · rw [if_pos hn]
      refine ⟨[Char.ofNat (48 + n)], rfl, by simp, by simpa using isDigit_digit hn, fun k => ?_⟩
      simp only [List.foldl_cons, List.foldl_nil, digit_toNat hn, List.length_singleton, pow_one]
      omega
    · rw [if_neg hn]
      obtain ⟨ds, e1, e2, e3, e4⟩ := ih (n / 10) (Char.ofNat (48 + n % 10) :: acc) (by omega)
      have hd : n % 10 < 10 := Nat.mod_lt _ (by omega)
      refine ⟨ds ++ [Char.ofNat (48 + n % 10)], by rw [e1]; simp, by simp, ?_, fun k => ?_⟩
      · intro c hc
        rcases List.mem_append.1 hc with hc | hc
        · exact e3 c hc
        · rw [List.mem_singleton.1 hc]; exact isDigit_digit hd
      · rw [List.foldl_append, e4]
        simp only [List.foldl_cons, List.foldl_nil, digit_toNat hd, List.length_append, List.length_singleton, pow_succ]
        have := Nat.div_add_mod n 10
        have e : 10 * (k * 10 ^ ds.length) = k * (10 ^ ds.length * 10) := by ring
        omega

theorem dec_spec (n : Nat) : dec n ≠ [] ∧ (∀ c ∈ dec n, isDigit c = true) ∧ ofDigits (dec n) = n := by
  obtain ⟨ds, e1, e2, e3, e4⟩ := decAux_spec (n + 1) n [] (by omega)
  rw [List.append_nil] at e1
  unfold dec
  rw [e1]
  exact ⟨e2, e3, by unfold ofDigits; rw [e4]; simp⟩

/-- Good stream with given rest. -/
def gs (all rest : List Char) : In := ⟨all, rest, false, false⟩

theorem takeWhile_append_stop {p : Char → Bool} {l : List Char} {c : Char} {t : List Char} (h : ∀ x ∈ l, p x = true) (hc : p c = false) :
    (l ++ c :: t).takeWhile p = l ∧ (l ++ c :: t).dropWhile p = c :: t := by
  induction l with
  | nil => simp [hc]
  | cons x l ih =>
    have := ih (fun y hy => h y (List.mem_cons_of_mem _ hy))
    simp [h x (by simp), this]

/-- A written unsigned number followed by a character that is no digit is read back; white space before it is skipped. -/
theorem getNat_dec (all ws : List Char) (n : Nat) (c : Char) (t : List Char) (hws : ∀ x ∈ ws, isSpace x = true) (hc : isDigit c = false) :
    getNat (gs all (ws ++ (dec n ++ c :: t))) = (some n, gs all (c :: t)) := by
  obtain ⟨h1, h2, h3⟩ := dec_spec n
  obtain ⟨d, ds, hd⟩ := List.exists_cons_of_ne_nil h1
  have hsp : isSpace d = false := isSpace_of_digit (h2 d (by rw [hd]; simp))
  have hdw : (ws ++ (dec n ++ c :: t)).dropWhile isSpace = dec n ++ c :: t := by
    rw [hd]
    exact (takeWhile_append_stop (p := isSpace) hws hsp).2
  obtain ⟨g1, g2⟩ := takeWhile_append_stop (p := isDigit) (t := t) h2 hc
  have hne : ((dec n ++ c :: t).takeWhile isDigit).isEmpty = false := by rw [g1, hd]; rfl
  unfold getNat formatted
  simp only [gs, Bool.or_self, Bool.false_eq_true, if_false]
  rw [hdw]
  have hcons : dec n ++ c :: t = d :: (ds ++ c :: t) := by rw [hd]; rfl
  rw [hcons]
  simp only
  rw [← hcons, hne]
  simp [g1, g2, h3]

/-- The same for numbers of the field. -/
theorem getVal_print {K : Type} [Zero K] {cd : Codec K} (hcd : cd.Lossless) (all ws : List Char) (v : K) (c : Char) (t : List Char) (hc : isSpace c = true)
    (hws : ∀ x ∈ ws, isSpace x = true) :
    getVal cd (gs all (ws ++ (cd.print v ++ c :: t))) = (some v, gs all (c :: t)) := by
  obtain ⟨d, ds, hd, hsp⟩ := hcd.head v
  have hdw : (ws ++ (cd.print v ++ c :: t)).dropWhile isSpace = cd.print v ++ c :: t := by
    rw [hd]
    exact (takeWhile_append_stop (p := isSpace) hws hsp).2
  unfold getVal formatted
  simp only [gs, Bool.or_self, Bool.false_eq_true, if_false]
  rw [hdw]
  have hcons : cd.print v ++ c :: t = d :: (ds ++ c :: t) := by rw [hd]; rfl
  rw [hcons]
  simp only
  rw [← hcons, hcd.scan v c t hc]
  rfl

theorem lineFeed_other (all : List Char) (c : Char) (t : List Char) (h1 : c ≠ ' ') (h2 : c ≠ '\n') :
    lineFeed (gs all (c :: t)) = (false, gs all (c :: t)) := by
  simp [lineFeed, gs, peek, lineFeedLoop, h1, h2]

theorem lineFeed_newline (all t : List Char) : lineFeed (gs all ('\n' :: t)) = (true, gs all t) := by
  simp [lineFeed, gs, peek, lineFeedLoop, skipChar]

theorem lineFeed_blank (all : List Char) (c : Char) (t : List Char) (h1 : c ≠ ' ') (h2 : c ≠ '\n') :
    lineFeed (gs all (' ' :: c :: t)) = (false, gs all (c :: t)) := by
  simp [lineFeed, gs, peek, lineFeedLoop, skipChar, h1, h2]

theorem dropLine_text (x t : List Char) (h : '\n' ∉ x) : dropLine (x ++ '\n' :: t) = (t, false) := by
  induction x with
  | nil => simp [dropLine]
  | cons a x ih =>
    have ha : a ≠ '\n' := fun e => h (by simp [e])
    simp [dropLine, ha, ih (fun hx => h (List.mem_cons_of_mem _ hx))]

theorem ignoreLine_text (all x t : List Char) (h : '\n' ∉ x) : ignoreLine (gs all (x ++ '\n' :: t)) = gs all t := by
  simp [ignoreLine, gs, dropLine_text x t h]

theorem skipLoop_comments (all : List Char) : ∀ (cs : List (List Char)) (f : Nat) (c : Char) (t : List Char), cs.length < f → c ≠ '%' →
    (∀ x ∈ cs, '\n' ∉ x) → skipLoop f (gs all (cs.flatMap commentText ++ c :: t)) = gs all (c :: t) := by
  intro cs
  induction cs with
  | nil =>
    intro f c t hf hc _
    obtain ⟨f, rfl⟩ : ∃ g, f = g + 1 := ⟨f - 1, by simp at hf; omega⟩
    simp [skipLoop, peek, gs, hc]
  | cons x cs ih =>
    intro f c t hf hc hx
    obtain ⟨f, rfl⟩ : ∃ g, f = g + 1 := ⟨f - 1, by simp at hf; omega⟩
    have e : (x :: cs).flatMap commentText ++ c :: t = ('%' :: x) ++ '\n' :: (cs.flatMap commentText ++ c :: t) := by
      simp [commentText]
    rw [e]
    unfold skipLoop
    have hp : peek (gs all (('%' :: x) ++ '\n' :: (cs.flatMap commentText ++ c :: t))) =
      (some '%', gs all (('%' :: x) ++ '\n' :: (cs.flatMap commentText ++ c :: t))) := by simp [peek, gs]
    simp only [hp, if_true]
    rw [ignoreLine_text _ _ _ (by
      have := hx x (by simp)
      simpa using this)]
    exact ih f c t (by simp at hf; omega) hc (fun y hy => hx y (List.mem_cons_of_mem _ hy))

theorem comments_length (cs : List (List Char)) (t : List Char) : cs.length ≤ (cs.flatMap commentText ++ t).length := by
  induction cs with
  | nil => simp
  | cons x cs ih => simp [commentText] at ih ⊢; omega

/-- Comments are skipped, from the beginning of a line. -/
theorem skipComments_start (all : List Char) (cs : List (List Char)) (c : Char) (t : List Char) (hc : c ≠ '%') (h1 : c ≠ ' ') (h2 : c ≠ '\n')
    (hx : ∀ x ∈ cs, '\n' ∉ x) : skipComments (gs all (cs.flatMap commentText ++ c :: t)) = gs all (c :: t) := by
  unfold skipComments
  have : lineFeed (gs all (cs.flatMap commentText ++ c :: t)) = (false, gs all (cs.flatMap commentText ++ c :: t)) := by
    cases cs with
    | nil => exact lineFeed_other _ _ _ h1 h2
    | cons x cs => simpa [commentText] using lineFeed_other all '%' _ (by decide) (by decide)
  simp only [this]
  exact skipLoop_comments all cs _ c t (by have := comments_length cs (c :: t); simp only [gs]; omega) hc hx

/-- and after the line feed of the line before. -/
theorem skipComments_newline (all : List Char) (cs : List (List Char)) (c : Char) (t : List Char) (hc : c ≠ '%')
    (hx : ∀ x ∈ cs, '\n' ∉ x) : skipComments (gs all ('\n' :: (cs.flatMap commentText ++ c :: t))) = gs all (c :: t) := by
  unfold skipComments
  simp only [lineFeed_newline]
  exact skipLoop_comments all cs _ c t (by have := comments_length cs (c :: t); simp only [gs]; omega) hc hx

theorem getWord_spec (all : List Char) (w : List Char) (d : Char) (ds : List Char) (hw : w = d :: ds) (c : Char) (t : List Char)
    (h : ∀ x ∈ w, isSpace x = false) (hc : isSpace c = true) : getWord (gs all (w ++ c :: t)) = (some w, gs all (c :: t)) := by
  have hsp : isSpace d = false := h d (by rw [hw]; simp)
  have hdw : (w ++ c :: t).dropWhile isSpace = w ++ c :: t := by rw [hw]; simp [hsp]
  obtain ⟨g1, g2⟩ := takeWhile_append_stop (p := fun c => !isSpace c) (l := w) (c := c) (t := t) (fun x hx => by simp [h x hx]) (by simp [hc])
  unfold getWord formatted
  simp only [gs, Bool.or_self, Bool.false_eq_true, if_false]
  rw [hdw]
  have hcons : w ++ c :: t = d :: (ds ++ c :: t) := by rw [hw]; rfl
  rw [hcons]
  simp only
  rw [← hcons, g1, g2]
  rfl

theorem readStructure_name (all rest buf : List Char) (hr : rest ≠ []) (h : Header) (st : Structure) :
    readStructure h buf (gs all (st.name ++ '\n' :: rest)) = (true, { h with structure_ := st }, gs all rest) := by
  obtain ⟨a, rest, rfl⟩ := List.exists_cons_of_ne_nil hr
  have e : getWord (gs all (st.name ++ '\n' :: a :: rest)) = (some st.name, gs all ('\n' :: a :: rest)) := by
    cases st <;> exact getWord_spec all _ _ _ rfl _ _ (by decide) (by decide)
  have hi : (peek (ignoreLine (gs all ('\n' :: a :: rest)))).2 = gs all (a :: rest) := by
    simp [ignoreLine, gs, dropLine, peek]
  unfold readStructure
  simp only [e, Option.getD_some]
  cases st
  · rw [if_pos (by decide), hi]
  · rw [if_neg (by decide), if_neg (by decide), if_pos (by decide), hi]
  · rw [if_neg (by decide), if_neg (by decide), if_neg (by decide), if_pos (by decide), hi]
  · rw [if_neg (by decide), if_pos (by decide), hi]

theorem readCType_name (all rest buf : List Char) (hr : rest ≠ []) (h : Header) (ct : CType) (st : Structure) :
    readCType h buf (gs all (ct.name ++ ' ' :: (st.name ++ '\n' :: rest))) = (true, { h with ctype := ct, structure_ := st }, gs all rest) := by
  have e : getWord (gs all (ct.name ++ ' ' :: (st.name ++ '\n' :: rest))) = (some ct.name, gs all (' ' :: (st.name ++ '\n' :: rest))) := by
    cases ct <;> exact getWord_spec all _ _ _ rfl _ _ (by decide) (by decide)
  have hl : lineFeed (gs all (' ' :: (st.name ++ '\n' :: rest))) = (false, gs all (st.name ++ '\n' :: rest)) := by
    cases st <;> exact lineFeed_blank _ _ _ (by decide) (by decide)
  have hs := fun h => readStructure_name all rest (lower ct.name) hr h st
  unfold readCType
  simp only [e, Option.getD_some, hl, Bool.false_eq_true, if_false, hs]
  cases ct
  · rw [if_pos (by decide)]
  · rw [if_neg (by decide), if_pos (by decide)]
  · rw [if_neg (by decide), if_neg (by decide), if_pos (by decide)]
  · rw [if_neg (by decide), if_neg (by decide), if_neg (by decide), if_pos (by decide)]

/-- The word for the type in the banner. -/
def MType.name : MType → List Char
  | .coordinate => "coordinate".toList
  | .array => "array".toList

theorem readType_name (all rest buf : List Char) (hr : rest ≠ []) (h : Header) (ty : MType) (ct : CType) (st : Structure) :
    readType h buf (gs all (ty.name ++ ' ' :: (ct.name ++ ' ' :: (st.name ++ '\n' :: rest)))) =
      (true, ⟨ty, ct, st⟩, gs all rest) := by
  have e : getWord (gs all (ty.name ++ ' ' :: (ct.name ++ ' ' :: (st.name ++ '\n' :: rest)))) =
      (some ty.name, gs all (' ' :: (ct.name ++ ' ' :: (st.name ++ '\n' :: rest)))) := by
    cases ty <;> exact getWord_spec all _ _ _ rfl _ _ (by decide) (by decide)
  have hl : lineFeed (gs all (' ' :: (ct.name ++ ' ' :: (st.name ++ '\n' :: rest)))) = (false, gs all (ct.name ++ ' ' :: (st.name ++ '\n' :: rest))) := by
    cases ct <;> exact lineFeed_blank _ _ _ (by decide) (by decide)
  have hs := fun h => readCType_name all rest (lower ty.name) hr h ct st
  unfold readType
  simp only [e, Option.getD_some, hl, Bool.false_eq_true, if_false, hs]
  cases ty
  · rw [if_neg (by decide), if_pos (by decide)]
  · rw [if_pos (by decide)]

/-- The banner is understood. -/
theorem readBanner_banner (all rest : List Char) (hr : rest ≠ []) (ty : MType) (ct : CType) (st : Structure) :
    readBanner (gs all ("%%MatrixMarket".toList ++ ' ' :: ("matrix".toList ++ ' ' :: (ty.name ++ ' ' :: (ct.name ++ ' ' :: (st.name ++ '\n' :: rest)))))) =
      (true, ⟨ty, ct, st⟩, gs all rest) := by
  have ht := readType_name all rest "matrix".toList hr {} ty ct st
  generalize hX : (ty.name ++ ' ' :: (ct.name ++ ' ' :: (st.name ++ '\n' :: rest))) = X at ht ⊢
  have hX2 : ∃ a t, X = a :: t ∧ a ≠ ' ' ∧ a ≠ '\n' := by
    subst hX
    cases ty
    · exact ⟨_, _, rfl, by decide, by decide⟩
    · exact ⟨_, _, rfl, by decide, by decide⟩
  obtain ⟨a, t, e, h1, h2⟩ := hX2
  have e1 := getWord_spec all "%%MatrixMarket".toList _ _ rfl ' ' ("matrix".toList ++ ' ' :: X) (by decide) (by decide)
  have e2 : lineFeed (gs all (' ' :: ("matrix".toList ++ ' ' :: X))) = (false, gs all ("matrix".toList ++ ' ' :: X)) :=
    lineFeed_blank _ _ _ (by decide) (by decide)
  have e3 := getWord_spec all "matrix".toList _ _ rfl ' ' X (by decide) (by decide)
  have e4 : lineFeed (gs all (' ' :: X)) = (false, gs all X) := by rw [e]; exact lineFeed_blank _ _ _ h1 h2
  unfold readBanner
  simp only [e1, Option.getD_some]
  rw [if_neg (by decide), if_neg (by decide)]
  simp only [e2, e3, Option.getD_some, Bool.false_eq_true, if_false]
  rw [if_neg (by decide)]
  simp only [e4, Bool.false_eq_true, if_false]
  exact ht

theorem banner_eq (ct : CType) (st : Structure) (rest : List Char) :
    banner ct st ++ rest =
      "%%MatrixMarket".toList ++ ' ' :: ("matrix".toList ++ ' ' :: (MType.coordinate.name ++ ' ' :: (ct.name ++ ' ' :: (st.name ++ '\n' :: rest)))) := by
  have e : "%%MatrixMarket matrix coordinate ".toList =
      "%%MatrixMarket".toList ++ ' ' :: ("matrix".toList ++ ' ' :: (MType.coordinate.name ++ [' '])) := by decide
  unfold banner
  rw [e]
  simp only [List.append_assoc, List.cons_append, List.nil_append]

end MM
end Istl
