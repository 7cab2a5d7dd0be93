import Verif.Spec.TextOut
import Verif.Lemmas.MatrixDim
import Verif.Lemmas.Vec

namespace Istl
namespace TextOut
open MatDim ForEach
variable {S : Type}

theorem foldlM_flat {X Y : Type} (f : Y → X → Res X) (g : Nat → X → Res X) (l : Nat → List Y) (hg : ∀ i x, g i x = (l i).foldlM (fun x y => f y x) x) :
    ∀ (n : Nat) (x : X), forRangeM n g x = ((List.range n).flatMap l).foldlM (fun x y => f y x) x
  | 0, x => rfl
  | n + 1, x => by
    rw [forRangeM_succ, foldlM_flat f g l hg n x, List.range_succ, List.flatMap_append, List.foldlM_append]
    congr 1
    funext y
    rw [hg]; simp

theorem recursive_leaves (rowtext : String) (columns width : Int) : ∀ (v : NVec S) (st : Stream S × Nat),
    recursivePrintvector rowtext columns width v st = v.leaves.foldlM (fun st x => printNumber rowtext columns width x st) st
  | .scalar x, st => by
    simp only [recursivePrintvector, NVec.leaves, List.foldlM_cons, List.foldlM_nil]
    cases printNumber rowtext columns width x st <;> rfl
  | .node n child, st => by
    simp only [recursivePrintvector, NVec.leaves]
    exact foldlM_flat (fun x st => printNumber rowtext columns width x st) _ (fun i => (child i).leaves)
      (fun i st => recursive_leaves rowtext columns width (child i) st) n st

theorem dim_leaves : ∀ v : NVec S, dim v = v.leaves.length
  | .scalar _ => rfl
  | .node n child => by
    simp only [dim, NVec.leaves]
    have : ∀ k, forRange k (fun i d => d + dim (child i)) 0 = ((List.range k).flatMap fun i => (child i).leaves).length := by
      intro k
      induction k with
      | zero => rfl
      | succ k ih => rw [forRange_succ, ih, List.range_succ, List.flatMap_append, List.length_append, dim_leaves (child k)]; simp
    exact this n

theorem tmod_iff (n : Nat) (c : Int) : Int.tmod n c = 0 ↔ n % c.natAbs = 0 := by
  rw [← Int.dvd_iff_tmod_eq_zero, ← Nat.dvd_iff_mod_eq_zero, ← Int.natAbs_dvd, Int.natCast_dvd_natCast]

theorem put_put (st : Stream S) (a b : List (Item S)) : (st.put a).put b = st.put (a ++ b) := by
  simp [Stream.put]

/-- The line without its end. -/
def openLine (rowtext : String) (c : Nat) (width : Int) (f : Fmt) (l : List S) (k : Nat) : List (Item S) :=
  [.text 0 rowtext, .text 0 " ", .idx 4 (k * c)] ++ (group c k l).flatMap (fun x => [.text 0 " ", .val width f x])

def vecText (rowtext : String) (c : Nat) (width : Int) (f : Fmt) (l : List S) : List (Item S) :=
  (List.range (l.length / c)).flatMap (vecLine rowtext c width f l) ++
    if l.length % c = 0 then [] else openLine rowtext c width f l (l.length / c)

theorem group_full {c k : Nat} {l : List S} (x : S) (h : (k + 1) * c ≤ l.length) : group c k (l ++ [x]) = group c k l := by
  have h1 : k * c + c ≤ l.length := by rw [Nat.succ_mul] at h; exact h
  unfold group
  rw [List.drop_append_of_le_length (by omega), List.take_append_of_le_length (by simp; omega)]

theorem group_last {c : Nat} (hc : 0 < c) (l : List S) (x : S) : group c (l.length / c) (l ++ [x]) = group c (l.length / c) l ++ [x] := by
  have h1 : l.length / c * c + l.length % c = l.length := by rw [Nat.mul_comm]; exact Nat.div_add_mod _ _
  have h2 := Nat.mod_lt l.length hc
  unfold group
  rw [List.drop_append_of_le_length (by omega), List.take_of_length_le (by simp; omega), List.take_of_length_le (by simp; omega)]

theorem group_none {c : Nat} {l : List S} (h : l.length % c = 0) : group c (l.length / c) l = [] := by
  have h1 : l.length / c * c + l.length % c = l.length := by rw [Nat.mul_comm]; exact Nat.div_add_mod _ _
  unfold group
  rw [List.drop_eq_nil_of_le (by omega)]; simp

theorem vecText_snoc (rowtext : String) {c : Nat} (hc : 0 < c) (width : Int) (f : Fmt) (l : List S) (x : S) :
    vecText rowtext c width f (l ++ [x]) = vecText rowtext c width f l ++
      ((if l.length % c = 0 then [.text 0 rowtext, .text 0 " ", .idx 4 l.length] else []) ++ [.text 0 " ", .val width f x] ++
        if (l.length + 1) % c = 0 then [.endl] else []) := by
  have h1 : l.length / c * c + l.length % c = l.length := by rw [Nat.mul_comm]; exact Nat.div_add_mod _ _
  have h2 := Nat.mod_lt l.length hc
  have hop : openLine rowtext c width f (l ++ [x]) (l.length / c) =
      (if l.length % c = 0 then [] else openLine rowtext c width f l (l.length / c)) ++
      ((if l.length % c = 0 then [.text 0 rowtext, .text 0 " ", .idx 4 l.length] else []) ++ [.text 0 " ", .val width f x]) := by
    unfold openLine
    rw [group_last hc]
    by_cases hr : l.length % c = 0
    · rw [if_pos hr, if_pos hr, group_none hr, show l.length / c * c = l.length by omega]; simp
    · rw [if_neg hr, if_neg hr]; simp
  have hfm : (List.range (l.length / c)).flatMap (vecLine rowtext c width f (l ++ [x])) = (List.range (l.length / c)).flatMap (vecLine rowtext c width f l) := by
    apply List.flatMap_congr
    intro k hk
    have hk := List.mem_range.mp hk
    unfold vecLine
    rw [group_full x]
    have := Nat.mul_le_mul_right c (show k + 1 ≤ l.length / c from hk)
    omega
  unfold vecText
  rw [List.length_append, List.length_singleton]
  by_cases he : (l.length + 1) % c = 0
  · have hq : (l.length + 1) / c = l.length / c + 1 := by
      have h3 : (l.length + 1) / c * c + (l.length + 1) % c = l.length + 1 := by rw [Nat.mul_comm]; exact Nat.div_add_mod _ _
      have h4 : l.length % c + 1 = c := by
        by_contra hne
        have : (l.length + 1) % c = l.length % c + 1 := by
          conv_lhs => rw [← h1, Nat.add_assoc, Nat.mul_comm, Nat.mul_add_mod]
          exact Nat.mod_eq_of_lt (by omega)
        omega
      have : l.length + 1 = (l.length / c + 1) * c := by rw [Nat.succ_mul]; omega
      rw [this, Nat.mul_div_cancel _ hc]
    rw [if_pos he, if_pos he, hq, List.range_succ, List.flatMap_append, hfm, List.flatMap_singleton]
    have : vecLine rowtext c width f (l ++ [x]) (l.length / c) = openLine rowtext c width f (l ++ [x]) (l.length / c) ++ [.endl] := rfl
    rw [this, hop]; simp
  · have hq : (l.length + 1) / c = l.length / c := by
      refine Nat.div_eq_of_lt_le (by omega) ?_
      rw [Nat.succ_mul]
      by_contra hge
      have : l.length + 1 = (l.length / c + 1) * c := by rw [Nat.succ_mul]; omega
      rw [this, Nat.mul_mod_left] at he; exact he rfl
    rw [if_neg he, if_neg he, hq, hfm, hop]; simp

theorem fold_text (rowtext : String) {columns : Int} (hc : columns ≠ 0) (width : Int) (s : Stream S) : ∀ n (l : List S), l.length = n →
    l.foldlM (fun st x => printNumber rowtext columns width x st) (s, 0) = .ok (s.put (vecText rowtext columns.natAbs width s.fmt l), l.length) := by
  have hpos : 0 < columns.natAbs := Int.natAbs_pos.mpr hc
  intro n
  induction n with
  | zero =>
    intro l hl
    rw [List.eq_nil_of_length_eq_zero hl]
    show Res.ok _ = _
    congr 2
    simp [Stream.put, vecText]
  | succ n ih =>
    intro l hl
    rcases List.eq_nil_or_concat l with h0 | ⟨l', x, h0⟩
    · rw [h0] at hl; simp at hl
    · rw [List.concat_eq_append] at h0
      subst h0
      have hl' : l'.length = n := by simpa using hl
      rw [List.foldlM_append, ih l' hl', vecText_snoc rowtext hpos]
      show (do let y ← printNumber rowtext columns width x _; Res.ok y) = _
      simp only [printNumber, if_neg hc, Res.ok_bind, tmod_iff]
      congr 1
      refine Prod.ext ?_ (by simp)
      have hn : ((l'.length : Int) + 1).tmod columns = 0 ↔ (l'.length + 1) % columns.natAbs = 0 := by
        rw [← tmod_iff]; simp
      by_cases h1 : l'.length % columns.natAbs = 0 <;> by_cases h2 : (l'.length + 1) % columns.natAbs = 0 <;>
        simp [h1, h2, put_put, Stream.put, hn]

theorem vecText_end (rowtext : String) {c : Nat} (hc : 0 < c) (width : Int) (f : Fmt) (l : List S) :
    (vecText rowtext c width f l ++ if l.length % c ≠ 0 then [.endl] else []) =
      (List.range (lineCount c l.length)).flatMap (vecLine rowtext c width f l) := by
  have h1 : l.length / c * c + l.length % c = l.length := by rw [Nat.mul_comm]; exact Nat.div_add_mod _ _
  have h2 := Nat.mod_lt l.length hc
  unfold vecText lineCount
  by_cases hr : l.length % c = 0
  · have hq : (l.length + c - 1) / c = l.length / c := by
      refine Nat.div_eq_of_lt_le (by omega) ?_
      rw [Nat.succ_mul]; omega
    rw [if_pos hr, if_neg (by simpa using hr), hq]; simp
  · have hq : (l.length + c - 1) / c = l.length / c + 1 := by
      refine Nat.div_eq_of_lt_le ?_ ?_
      · rw [Nat.succ_mul]; omega
      · rw [Nat.succ_mul, Nat.succ_mul]; omega
    rw [if_neg hr, if_pos hr, hq, List.range_succ, List.flatMap_append, List.flatMap_singleton]
    have : vecLine rowtext c width f l (l.length / c) = openLine rowtext c width f l (l.length / c) ++ [.endl] := rfl
    rw [this]; simp

theorem matlab_leaves : ∀ (v : NVec S) (st : Stream S), matlabVector v st = st.put (v.leaves.flatMap fun x => [.val 0 st.fmt x, .endl])
  | .scalar x, st => by simp [matlabVector, NVec.leaves]
  | .node n child, st => by
    simp only [matlabVector, NVec.leaves]
    have : ∀ k, forRange k (fun i st => matlabVector (child i) st) st =
        st.put (((List.range k).flatMap fun i => (child i).leaves).flatMap fun x => [.val 0 st.fmt x, .endl]) := by
      intro k
      induction k with
      | zero => simp [Stream.put]
      | succ k ih =>
        rw [forRange_succ, ih, matlab_leaves (child k), put_put, List.range_succ, List.flatMap_append, List.flatMap_append]
        simp [Stream.put]
    exact this n

end TextOut
end Istl
