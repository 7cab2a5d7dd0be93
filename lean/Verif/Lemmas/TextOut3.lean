import Verif.Lemmas.TextOut2

namespace Istl
namespace TextOut
open MatDim ForEach
variable {S : Type} {f : Fmt} {rowtext : String} {nb mb row : Nat} {elt : Nat → Nat → Nat → Option S}

theorem innerElement_eq (x : Option S) : innerElement f x = showElement f x := by cases x <;> rfl

/-- A block after the first one of the line. -/
def body (f : Fmt) (mb : Nat) (elt : Nat → Nat → Nat → Option S) (ir col : Nat) : List (Item S) :=
  (if ir = 0 then [.idx 4 col, .text 0 ": |"] else [.text 0 "      |"]) ++ (List.range mb).flatMap (fun ic => showElement f (elt col ir ic)) ++ [.text 0 "|"]

def lead (rowtext : String) (row ir : Nat) : List (Item S) :=
  if ir = 0 then [.text 0 rowtext, .text 0 " ", .idx 4 row, .text 0 ": "] else List.replicate rowtext.length (.text 0 " ") ++ [.text 0 "       "]

theorem sparseBlock_eq (ir : Nat) (first : Bool) (col : Nat) :
    sparseBlock f rowtext mb row elt ir first col = (if first then lead rowtext row ir else []) ++ body f mb elt ir col := by
  have : (fun ic => innerElement f (elt col ir ic)) = fun ic => showElement f (elt col ir ic) := funext fun ic => innerElement_eq _
  unfold sparseBlock lead body
  rw [this]
  by_cases h : ir = 0 <;> cases first <;> simp [h]

theorem line_after (ir s w : Nat) : ∀ (l : List Nat) (a : Nat), s < a → a ≤ s + w →
    sparseLine f rowtext mb row elt ir s w l a = ((l.take (s + w - a)).flatMap (body f mb elt ir), decide (l.length ≤ s + w - a))
  | [], a, _, _ => by simp [sparseLine]
  | c :: l, a, h1, h2 => by
    unfold sparseLine
    rw [if_neg (by omega)]
    by_cases h : s + w = a
    · rw [if_pos (by omega), show s + w - a = 0 by omega]; simp
    · rw [if_neg (by omega)]
      have := line_after ir s w l (a + 1) (by omega) (by omega)
      push_cast at this
      rw [this, sparseBlock_eq, show s + w - a = (s + w - (a + 1)) + 1 by omega]
      simp only [show decide ((a : Int) = s) = false by simp; omega, List.take_succ_cons, List.flatMap_cons, List.length_cons]
      simp

theorem line_at (ir s w : Nat) (hw : 0 < w) (l : List Nat) :
    sparseLine f rowtext mb row elt ir s w l s =
      ((if l = [] then [] else lead rowtext row ir) ++ (l.take w).flatMap (body f mb elt ir), decide (l.length ≤ w)) := by
  cases l with
  | nil => simp [sparseLine]
  | cons c l =>
    unfold sparseLine
    rw [if_neg (by omega), if_neg (by omega)]
    have := line_after (f := f) (rowtext := rowtext) (mb := mb) (row := row) (elt := elt) ir s w l (s + 1) (by omega) (by omega)
    push_cast at this
    rw [this, sparseBlock_eq]
    obtain ⟨w, rfl⟩ : ∃ v, w = v + 1 := ⟨w - 1, by omega⟩
    simp [show s + (w + 1) - (s + 1) = w by omega]

theorem line_before (ir s w : Nat) : ∀ (l : List Nat) (a : Nat), a ≤ s →
    sparseLine f rowtext mb row elt ir s w l a = sparseLine f rowtext mb row elt ir s w (l.drop (s - a)) s
  | [], a, _ => by simp [sparseLine]
  | c :: l, a, h => by
    by_cases he : a = s
    · subst he; simp
    · rw [sparseLine, if_pos (by omega)]
      have := line_before ir s w l (a + 1) (by omega)
      push_cast at this
      rw [this, show s - a = (s - (a + 1)) + 1 by omega, List.drop_succ_cons]

theorem line_eq (ir k c : Nat) (hc : 0 < c) (cols : List Nat) :
    (sparseLine f rowtext mb row elt ir ((k * c : Nat) : Int) c cols 0).1 ++ [.endl] = blockLine f rowtext mb row elt ir (group c k cols) ∧
    (sparseLine f rowtext mb row elt ir ((k * c : Nat) : Int) c cols 0).2 = decide (cols.length ≤ (k + 1) * c) := by
  have h1 := line_before (f := f) (rowtext := rowtext) (mb := mb) (row := row) (elt := elt) ir (k * c) c cols 0 (Nat.zero_le _)
  rw [Nat.cast_zero] at h1
  rw [h1, Nat.sub_zero, line_at ir _ _ hc]
  constructor
  · unfold blockLine
    have hg : (cols.drop (k * c)).take c = group c k cols := rfl
    have hn : (cols.drop (k * c) = []) ↔ group c k cols = [] := by
      rw [← hg, List.take_eq_nil_iff]
      constructor
      · intro h; exact Or.inr h
      · rintro (h | h)
        · omega
        · exact h
    rw [hg]
    simp only [hn]
    rfl
  · simp only [List.length_drop, decide_eq_decide]
    rw [Nat.succ_mul]; omega

/-- The lines of one group. -/
def groupLines (f : Fmt) (rowtext : String) (nb mb row : Nat) (elt : Nat → Nat → Nat → Option S) (g : List Nat) : List (Item S) :=
  (List.range nb).flatMap (fun ir => blockLine f rowtext mb row elt ir g)

theorem round_eq (k c : Nat) (hc : 0 < c) (hnb : 0 < nb) (cols : List Nat) :
    (sparseRound f rowtext nb mb row elt cols ((k * c : Nat) : Int) c).2 = decide (cols.length ≤ (k + 1) * c) ∧
    (sparseRound f rowtext nb mb row elt cols ((k * c : Nat) : Int) c).1 ++ [.endl] =
      groupLines f rowtext nb mb row elt (group c k cols) ++ if cols.length ≤ (k + 1) * c then [] else [.endl] := by
  have key : ∀ n, n < nb → forRange n (fun ir (st : List (Item S) × Bool) =>
      let r := sparseLine f rowtext mb row elt ir ((k * c : Nat) : Int) c cols 0
      if ir + 1 = nb ∧ r.2 = true then (st.1 ++ r.1, true) else (st.1 ++ r.1 ++ [.endl], st.2)) ([], false) =
        (groupLines f rowtext n mb row elt (group c k cols), false) := by
    intro n
    induction n with
    | zero => intro _; rfl
    | succ n ih =>
      intro hn
      rw [forRange_succ, ih (by omega)]
      dsimp only
      rw [if_neg (fun h => by omega), List.append_assoc, (line_eq n _ c hc cols).1]
      unfold groupLines
      rw [List.range_succ, List.flatMap_append, List.flatMap_singleton]
  obtain ⟨n, rfl⟩ : ∃ n, nb = n + 1 := ⟨nb - 1, by omega⟩
  unfold sparseRound
  rw [forRange_succ, key n (by omega)]
  dsimp only
  have hl := line_eq (f := f) (rowtext := rowtext) (mb := mb) (row := row) (elt := elt) n k c hc cols
  have hgl : groupLines f rowtext (n + 1) mb row elt (group c k cols) =
      groupLines f rowtext n mb row elt (group c k cols) ++ blockLine f rowtext mb row elt n (group c k cols) := by
    unfold groupLines
    rw [List.range_succ, List.flatMap_append, List.flatMap_singleton]
  by_cases hend : cols.length ≤ (k + 1) * c
  · rw [if_pos ⟨rfl, by rw [hl.2]; simpa using hend⟩, if_pos hend, hgl, ← hl.1]
    simp [hend]
  · rw [if_neg (fun h => hend (by have h2 := h.2; rw [hl.2] at h2; simpa using h2)), if_neg hend, hgl, ← hl.1]
    simp [hend]

theorem last_iff {c n k : Nat} (hc : 0 < c) (hk : k < groupCount c n) : n ≤ (k + 1) * c ↔ k + 1 = groupCount c n := by
  unfold groupCount lineCount at *
  have h1 : n ≤ (k + 1) * c ↔ (n + c - 1) / c ≤ k + 1 := by
    rw [← Nat.lt_succ_iff (m := (n + c - 1) / c), Nat.div_lt_iff_lt_mul hc, Nat.succ_mul (k + 1)]; omega
  rw [h1]
  omega

theorem rounds_eq (c : Nat) (hc : 0 < c) (hnb : 0 < nb) (cols : List Nat) : ∀ (d k fuel : Nat) (out : List (Item S)),
    groupCount c cols.length = k + d + 1 → d < fuel →
    ∃ x, sparseRounds f rowtext nb mb row elt cols c fuel ((k * c : Nat) : Int) out = some x ∧
      x ++ [.endl] = out ++ (List.range' k (d + 1)).flatMap (fun k => groupLines f rowtext nb mb row elt (group c k cols) ++ [.endl]) := by
  intro d
  induction d with
  | zero =>
    intro k fuel out hg hf
    obtain ⟨fuel, rfl⟩ : ∃ n, fuel = n + 1 := ⟨fuel - 1, by omega⟩
    have hr := round_eq (f := f) (rowtext := rowtext) (mb := mb) (row := row) (elt := elt) k c hc hnb cols
    have hle : cols.length ≤ (k + 1) * c := (last_iff hc (by omega)).mpr (by omega)
    unfold sparseRounds
    dsimp only
    rw [if_pos (by rw [hr.1]; simpa using hle)]
    refine ⟨_, rfl, ?_⟩
    rw [List.append_assoc out, hr.2, if_pos hle]; simp
  | succ d ih =>
    intro k fuel out hg hf
    obtain ⟨fuel, rfl⟩ : ∃ n, fuel = n + 1 := ⟨fuel - 1, by omega⟩
    have hr := round_eq (f := f) (rowtext := rowtext) (mb := mb) (row := row) (elt := elt) k c hc hnb cols
    have hle : ¬ cols.length ≤ (k + 1) * c := fun h => by
      have := (last_iff hc (by omega)).mp h; omega
    obtain ⟨x, h1, h2⟩ := ih (k + 1) fuel (out ++ (groupLines f rowtext nb mb row elt (group c k cols) ++ [.endl])) (by omega) (by omega)
    refine ⟨x, ?_, ?_⟩
    · unfold sparseRounds
      dsimp only
      rw [if_neg (by rw [hr.1]; simpa using hle), List.append_assoc out, hr.2, if_neg hle]
      rw [← h1]
      congr 1
      push_cast; ring
    · rw [h2, List.range'_succ (s := k), List.flatMap_cons]
      simp

theorem row_eq (c : Nat) (hc : 0 < c) (hnb : 0 < nb) (cols : List Nat) (fuel : Nat) (hf : cols.length < fuel) (out : List (Item S)) :
    ∃ x, sparseRounds f rowtext nb mb row elt cols c fuel 0 out = some x ∧ x ++ [.endl] = out ++ sparseRow f rowtext nb mb row elt c cols := by
  have hg : 0 < groupCount c cols.length := by unfold groupCount; omega
  have hg2 : groupCount c cols.length ≤ cols.length + 1 := by
    unfold groupCount lineCount
    have : (cols.length + c - 1) / c ≤ cols.length + 1 := by
      rw [← Nat.lt_succ_iff, Nat.div_lt_iff_lt_mul hc]
      have := Nat.mul_le_mul_left cols.length hc
      rw [Nat.succ_mul, Nat.succ_mul]; omega
    omega
  obtain ⟨x, h1, h2⟩ := rounds_eq (f := f) (rowtext := rowtext) (mb := mb) (row := row) (elt := elt) c hc hnb cols (groupCount c cols.length - 1) 0 fuel out
    (by omega) (by omega)
  refine ⟨x, by simpa using h1, ?_⟩
  rw [h2, show groupCount c cols.length - 1 + 1 = groupCount c cols.length by omega, ← List.range_eq_range']
  rfl

theorem rows_eq {elt : Nat → Nat → Nat → Nat → Option S} {pat : Nat → List Nat} (c : Nat) (hc : 0 < c) (hnb : 0 < nb) (fuel : Nat) :
    ∀ (rows : List Nat) (out : List (Item S)), (∀ i ∈ rows, (pat i).length < fuel) →
      sparseRows f rowtext nb mb pat elt c fuel rows out = some (out ++ rows.flatMap (fun i => sparseRow f rowtext nb mb i (elt i) c (pat i)))
  | [], out, _ => by simp [sparseRows]
  | i :: rows, out, h => by
    obtain ⟨x, h1, h2⟩ := row_eq (f := f) (rowtext := rowtext) (mb := mb) (row := i) (elt := elt i) c hc hnb (pat i) fuel (h i (by simp)) out
    unfold sparseRows
    rw [h1]
    dsimp only
    rw [rows_eq c hc hnb fuel rows _ (fun a ha => h a (by simp [ha])), h2]
    simp

theorem round_never {width skip : Int} {cols : List Nat} (h : nb = 0 ∨ (width ≤ 0 ∧ skip ≤ 0 ∧ cols ≠ [])) :
    (sparseRound f rowtext nb mb row elt cols skip width).2 = false := by
  rcases h with h | ⟨h1, h2, h3⟩
  · subst h; rfl
  · have hline : ∀ ir, (sparseLine f rowtext mb row elt ir skip width cols 0).2 = false := by
      intro ir
      cases cols with
      | nil => exact absurd rfl h3
      | cons a l =>
        unfold sparseLine
        rw [if_neg (by omega), if_pos (by omega)]
    have : ∀ n, (forRange n (fun ir (st : List (Item S) × Bool) =>
      let r := sparseLine f rowtext mb row elt ir skip width cols 0
      if ir + 1 = nb ∧ r.2 = true then (st.1 ++ r.1, true) else (st.1 ++ r.1 ++ [.endl], st.2)) ([], false)).2 = false := by
      intro n
      induction n with
      | zero => rfl
      | succ n ih =>
        rw [forRange_succ]
        dsimp only
        rw [if_neg (fun h => by rw [hline] at h; simp at h)]
        exact ih
    exact this nb

theorem rounds_never {width : Int} {cols : List Nat} (h : nb = 0 ∨ (width ≤ 0 ∧ cols ≠ [])) : ∀ (fuel : Nat) (skip : Int) (out : List (Item S)),
    skip ≤ 0 ∨ nb = 0 → sparseRounds f rowtext nb mb row elt cols width fuel skip out = none
  | 0, _, _, _ => rfl
  | fuel + 1, skip, out, hs => by
    unfold sparseRounds
    dsimp only
    have hr : (sparseRound f rowtext nb mb row elt cols skip width).2 = false := round_never (by
      rcases h with h | h
      · exact Or.inl h
      · rcases hs with hs | hs
        · exact Or.inr ⟨h.1, hs, h.2⟩
        · exact Or.inl hs)
    rw [hr, if_neg (by simp)]
    refine rounds_never h fuel _ _ ?_
    rcases h with h | h
    · exact Or.inr h
    · rcases hs with hs | hs
      · exact Or.inl (by omega)
      · exact Or.inr hs

theorem rows_never {elt : Nat → Nat → Nat → Nat → Option S} {pat : Nat → List Nat} {width : Int} (fuel : Nat) :
    ∀ (rows : List Nat) (out : List (Item S)), (∃ i ∈ rows, nb = 0 ∨ (width ≤ 0 ∧ pat i ≠ [])) →
      sparseRows f rowtext nb mb pat elt width fuel rows out = none
  | [], out, h => by simp at h
  | i :: rows, out, ⟨a, ha, h⟩ => by
    unfold sparseRows
    rcases List.mem_cons.mp ha with ha | ha
    · subst ha
      rw [rounds_never h fuel 0 out (Or.inl (le_refl _))]
    · split
      · rfl
      · exact rows_never fuel rows _ ⟨a, ha, h⟩

theorem group_flat {Y : Type} (c : Nat) (hc : 0 < c) (l : List Y) : ∀ n, (List.range n).flatMap (fun k => group c k l) = l.take (n * c)
  | 0 => by simp
  | n + 1 => by
    rw [List.range_succ, List.flatMap_append, group_flat c hc l n, List.flatMap_singleton]
    unfold group
    rw [Nat.succ_mul, List.take_add]

theorem group_flat_all {Y : Type} (c : Nat) (hc : 0 < c) (l : List Y) :
    (List.range (lineCount c l.length)).flatMap (fun k => group c k l) = l ∧ (List.range (groupCount c l.length)).flatMap (fun k => group c k l) = l := by
  have : l.length ≤ lineCount c l.length * c := by
    unfold lineCount
    have h1 : (l.length + c - 1) / c * c + (l.length + c - 1) % c = l.length + c - 1 := by rw [Nat.mul_comm]; exact Nat.div_add_mod _ _
    have := Nat.mod_lt (l.length + c - 1) hc
    omega
  have h2 : lineCount c l.length * c ≤ groupCount c l.length * c := Nat.mul_le_mul_right _ (by unfold groupCount; omega)
  rw [group_flat c hc, group_flat c hc, List.take_of_length_le this, List.take_of_length_le (le_trans this h2)]
  exact ⟨rfl, rfl⟩

end TextOut
end Istl
