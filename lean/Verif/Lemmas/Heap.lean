import Verif.Model.Heap
import Mathlib.Tactic

/-! Helper lemmas about memory divided into consecutive segments. -/

namespace Istl
namespace Mem
variable {α : Type}

/-- Block `jb` consists of the segments `segs` one after the other, followed by `rest`. -/
def Holds (M : Mem α) (jb : Option Nat) (segs : List (List α)) (rest : List α) : Prop :=
  match jb with
  | none => segs.flatten = [] ∧ rest = []
  | some b => M[b]? = some (some (segs.flatten ++ rest))

/-- offset of segment `i` -/
def segOff (segs : List (List α)) (i : Nat) : Nat := (segs.take i).flatten.length

theorem flatten_split (segs : List (List α)) (i : Nat) (h : i < segs.length) :
    segs.flatten = (segs.take i).flatten ++ segs[i] ++ (segs.drop (i + 1)).flatten := by
  conv_lhs => rw [← List.take_append_drop i segs]
  rw [List.flatten_append, List.drop_eq_getElem_cons h, List.flatten_cons, List.append_assoc]

theorem flatten_set (segs : List (List α)) (i : Nat) (h : i < segs.length) (xs : List α) :
    (segs.set i xs).flatten = (segs.take i).flatten ++ xs ++ (segs.drop (i + 1)).flatten := by
  rw [List.set_eq_take_append_cons_drop, if_pos h]
  simp

theorem Holds.read {M : Mem α} {jb : Option Nat} {segs : List (List α)} {rest : List α} (H : Holds M jb segs rest)
    {i : Nat} (h : i < segs.length) {p : Option Ptr} (hp : 0 < segs[i].length → p = jb.map fun b => ⟨b, segOff segs i⟩) :
    M.read p segs[i].length = .ok segs[i] := by
  by_cases h0 : segs[i].length = 0
  · simp [Mem.read, List.length_eq_zero_iff.mp h0]
  · rw [hp (by omega)]
    cases jb with
    | none =>
      exfalso
      have := H.1
      rw [flatten_split segs i h] at this
      simp at this
      exact h0 (by simp [this])
    | some b =>
      simp only [Holds] at H
      have hl : segOff segs i + segs[i].length ≤ (segs.flatten ++ rest).length := by
        rw [flatten_split segs i h]
        simp [segOff]
      simp only [Mem.read, Option.map_some, H, h0, if_false, if_pos hl]
      congr 1
      rw [flatten_split segs i h, segOff]
      simp only [List.append_assoc]
      rw [List.drop_left, List.take_left]

theorem Holds.write {M : Mem α} {jb : Option Nat} {segs : List (List α)} {rest : List α} (H : Holds M jb segs rest)
    {i : Nat} (h : i < segs.length) {p : Option Ptr} (hp : 0 < segs[i].length → p = jb.map fun b => ⟨b, segOff segs i⟩)
    {xs : List α} (hx : xs.length = segs[i].length) :
    ∃ M', M.write p xs = .ok M' ∧ Holds M' jb (segs.set i xs) rest ∧ M'.length = M.length ∧
      (∀ c, jb ≠ some c → M'[c]? = M[c]?) := by
  by_cases h0 : segs[i].length = 0
  · have hxe : xs = [] := List.length_eq_zero_iff.mp (by omega)
    subst hxe
    refine ⟨M, by simp [Mem.write], ?_, rfl, fun _ _ => rfl⟩
    have : segs.set i [] = segs := by
      apply List.ext_getElem (by simp)
      intro k h1 h2
      rw [List.getElem_set]
      split
      · rename_i hk; subst hk; exact (List.length_eq_zero_iff.mp h0).symm
      · rfl
    rw [this]; exact H
  · rw [hp (by omega)]
    cases jb with
    | none =>
      exfalso
      have := H.1
      rw [flatten_split segs i h] at this
      simp at this
      exact h0 (by simp [this])
    | some b =>
      simp only [Holds] at H
      have hb : b < M.length := by
        by_contra hc
        rw [List.getElem?_eq_none (by omega)] at H
        cases H
      have hl : segOff segs i + xs.length ≤ (segs.flatten ++ rest).length := by
        rw [flatten_split segs i h]
        simp [segOff]
        omega
      have hxe : xs ≠ [] := by
        intro hc; subst hc; simp at hx; omega
      refine ⟨M.set b (some ((segs.flatten ++ rest).take (segOff segs i) ++ xs ++
        (segs.flatten ++ rest).drop (segOff segs i + xs.length))),
        by simp only [Mem.write, Option.map_some, H, hxe, if_false, if_pos hl], ?_, List.length_set, ?_⟩
      · simp only [Holds, List.getElem?_set_self hb]
        congr 2
        rw [flatten_set segs i h, flatten_split segs i h, segOff, hx]
        simp only [List.append_assoc]
        rw [List.take_left, ← List.drop_drop, List.drop_left, List.drop_left]
      · intro c hc
        rw [List.getElem?_set_ne]
        intro hcb; subst hcb; simp at hc

theorem segOff_set (segs : List (List α)) (i k : Nat) (xs : List α) (h : i < segs.length)
    (hx : xs.length = segs[i].length) : segOff (segs.set i xs) k = segOff segs k := by
  unfold segOff
  simp only [List.length_flatten]
  congr 1
  rw [List.map_take, List.map_take]
  congr 1
  apply List.ext_getElem (by simp)
  intro q h1 h2
  simp only [List.getElem_map, List.getElem_set]
  split
  · rename_i hq; subst hq; exact hx
  · rfl

theorem getElem?_alloc_old (M : Mem α) (l : List α) {c : Nat} (h : c < M.length) : (M.alloc l).1[c]? = M[c]? := by
  simp [alloc, List.getElem?_append_left h]

theorem getElem?_alloc_new (M : Mem α) (l : List α) : (M.alloc l).1[(M.alloc l).2]? = some (some l) := by
  simp [alloc]

end Mem
end Istl
