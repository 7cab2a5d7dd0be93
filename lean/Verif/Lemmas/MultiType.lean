import Verif.Spec.MultiType
import Mathlib.Data.List.FinRange
import Mathlib.Data.Fintype.BigOperators
import Mathlib.Algebra.Order.Ring.Defs
import Mathlib.Algebra.Order.BigOperators.Group.Finset
import Mathlib.Algebra.Module.BigOperators
import Mathlib.Tactic.Abel

/-! # Loops over tuples -/

namespace Istl
namespace MultiType
variable {R : Type} {n m : Nat}

theorem foldl_each {X : Fin n → Type} (f : ∀ i, X i → X i) (l : List (Fin n)) (hl : l.Nodup) (t : ∀ i, X i) (i : Fin n) :
    l.foldl (fun t i => Function.update t i (f i (t i))) t i = if i ∈ l then f i (t i) else t i := by
  induction l generalizing t with
  | nil => simp
  | cons a l ih =>
    rw [List.foldl_cons, ih (List.nodup_cons.mp hl).2]
    have ha := (List.nodup_cons.mp hl).1
    by_cases h : i = a
    · subst h
      simp [ha]
    · simp [h, Function.update_of_ne h]

theorem each_eq {X : Fin n → Type} (f : ∀ i, X i → X i) (t : ∀ i, X i) : each f t = fun i => f i (t i) := by
  funext i
  unfold each
  rw [foldl_each f _ (List.nodup_finRange n), if_pos (List.mem_finRange i)]

theorem foldl_update {Y : Fin n → Type} {J : Type} (i : Fin n) (f : J → Y i → Y i) (l : List J) (y : ∀ i, Y i) :
    l.foldl (fun y j => Function.update y i (f j (y i))) y = Function.update y i (l.foldl (fun r j => f j r) (y i)) := by
  induction l generalizing y with
  | nil => simp
  | cons a l ih => rw [List.foldl_cons, ih, List.foldl_cons]; simp

theorem each2_eq {Y : Fin n → Type} (f : ∀ i, Fin m → Y i → Y i) (y : ∀ i, Y i) :
    each2 m f y = fun i => (List.finRange m).foldl (fun r j => f i j r) (y i) := by
  rw [← each_eq (fun i yi => (List.finRange m).foldl (fun r j => f i j r) yi)]
  unfold each2 each
  congr 1
  funext y i
  exact foldl_update i (f i) _ y

theorem foldl_add {J M : Type} [AddCommMonoid M] (g : J → M) (l : List J) (y : M) :
    l.foldl (fun r j => r + g j) y = y + (l.map g).sum := by
  induction l generalizing y with
  | nil => simp
  | cons a l ih => simp [ih, add_assoc]

theorem foldl_sub {J M : Type} [AddCommGroup M] (g : J → M) (l : List J) (y : M) :
    l.foldl (fun r j => r - g j) y = y - (l.map g).sum := by
  induction l generalizing y with
  | nil => simp
  | cons a l ih => simp [ih, sub_sub]

theorem finRange_sum {M : Type} [AddCommMonoid M] (g : Fin m → M) : ((List.finRange m).map g).sum = ∑ j, g j := by
  rw [← List.ofFn_eq_map, List.sum_ofFn]

theorem loop_add {M : Type} [AddCommMonoid M] (g : Fin m → M) (y : M) :
    (List.finRange m).foldl (fun r j => r + g j) y = y + ∑ j, g j := by rw [foldl_add, finRange_sum]

theorem loop_sub {M : Type} [AddCommGroup M] (g : Fin m → M) (y : M) :
    (List.finRange m).foldl (fun r j => r - g j) y = y - ∑ j, g j := by rw [foldl_sub, finRange_sum]

theorem foldl_max {J M : Type} [LinearOrder M] (g : J → M) (l : List J) (a : M) :
    a ≤ l.foldl (fun r j => max (g j) r) a ∧ (∀ j ∈ l, g j ≤ l.foldl (fun r j => max (g j) r) a) ∧
    (l.foldl (fun r j => max (g j) r) a = a ∨ ∃ j ∈ l, l.foldl (fun r j => max (g j) r) a = g j) := by
  induction l generalizing a with
  | nil => simp
  | cons b l ih =>
    rw [List.foldl_cons]
    obtain ⟨h1, h2, h3⟩ := ih (max (g b) a)
    refine ⟨le_trans (le_max_right _ _) h1, ?_, ?_⟩
    · intro j hj
      rcases List.mem_cons.mp hj with rfl | hj
      · exact le_trans (le_max_left _ _) h1
      · exact h2 j hj
    · rcases h3 with h | ⟨j, hj, h⟩
      · rcases max_choice (g b) a with h' | h'
        · exact .inr ⟨b, by simp, by rw [h, h']⟩
        · exact .inl (by rw [h, h'])
      · exact .inr ⟨j, by simp [hj], h⟩

/-- A Gauss-Seidel like sweep: every entry is computed from the new values of the entries visited before it and the old values
of the others. -/
theorem sweep {X : Fin n → Type} (G : ∀ i, (∀ j, X j) → X i) (rel : Fin n → Fin n → Prop) (hirr : ∀ i, ¬ rel i i)
    (hasym : ∀ i j, rel i j → ¬ rel j i) [DecidableRel rel] (l : List (Fin n)) (hl : l.Pairwise rel) (x : ∀ i, X i) :
    (∀ i, i ∉ l → l.foldl (fun x i => Function.update x i (G i x)) x i = x i) ∧
    ∀ i ∈ l, l.foldl (fun x i => Function.update x i (G i x)) x i =
      G i fun j => if j ∈ l ∧ rel j i then l.foldl (fun x i => Function.update x i (G i x)) x j else x j := by
  induction l generalizing x with
  | nil => simp
  | cons a l ih =>
    rw [List.foldl_cons]
    obtain ⟨hal, hl⟩ := List.pairwise_cons.mp hl
    obtain ⟨h1, h2⟩ := ih hl (Function.update x a (G a x))
    have han : a ∉ l := fun h => hirr a (hal a h)
    have hra := h1 a han
    rw [Function.update_self] at hra
    constructor
    · intro i hi
      rw [List.mem_cons, not_or] at hi
      rw [h1 i hi.2, Function.update_of_ne hi.1]
    · intro i hi
      rcases List.mem_cons.mp hi with rfl | hil
      · rw [hra]
        congr 1
        funext j
        rw [if_neg]
        rintro ⟨hj, hr⟩
        rcases List.mem_cons.mp hj with rfl | hj
        · exact hirr _ hr
        · exact hasym _ _ hr (hal j hj)
      · rw [h2 i hil]
        congr 1
        funext j
        by_cases hj : j = a
        · subst hj
          rw [if_neg (fun h => han h.1), if_pos ⟨by simp, hal i hil⟩, Function.update_self, hra]
        · simp only [List.mem_cons, hj, false_or]
          split
          · rfl
          · rw [Function.update_of_ne hj]

theorem sweep_up {X : Fin n → Type} (G : ∀ i, (∀ j, X j) → X i) (x : ∀ i, X i) (i : Fin n) :
    (List.finRange n).foldl (fun x i => Function.update x i (G i x)) x i =
      G i fun j => if j < i then (List.finRange n).foldl (fun x i => Function.update x i (G i x)) x j else x j := by
  have := (sweep G (· < ·) (fun i => lt_irrefl i) (fun i j h => lt_asymm h) (List.finRange n)
    (List.pairwise_lt_finRange n) x).2 i (List.mem_finRange i)
  simpa only [List.mem_finRange, true_and] using this

theorem sweep_down {X : Fin n → Type} (G : ∀ i, (∀ j, X j) → X i) (x : ∀ i, X i) (i : Fin n) :
    (List.finRange n).reverse.foldl (fun x i => Function.update x i (G i x)) x i =
      G i fun j => if i < j then (List.finRange n).reverse.foldl (fun x i => Function.update x i (G i x)) x j else x j := by
  have := (sweep G (fun a b => b < a) (fun i => lt_irrefl i) (fun i j h => lt_asymm h) (List.finRange n).reverse
    (List.pairwise_reverse.mpr (List.pairwise_lt_finRange n)) x).2 i (by simp)
  simpa only [List.mem_reverse, List.mem_finRange, true_and] using this

section Steps
variable {X Y : Fin n → Type} [∀ i, AddCommGroup (X i)] [∀ i, AddCommGroup (Y i)] [Ring R] [∀ i, Module R (X i)]

theorem calcRhs_eq (A : ∀ i j, BlockOps R (X j) (Y i)) (f : ∀ i j, X j → Y i)
    (hA : ∀ i j x y, (A i j).mmv x y = y - f i j x) (x : ∀ j, X j) (i : Fin n) (b : Y i) :
    calcRhs A x i b = b - ∑ j, f i j (x j) := by
  unfold calcRhs
  simp only [hA]
  exact loop_sub (fun j => f i j (x j)) b

/-- The temporary `v` of `bsorf`/`bsorb` holds the original `x_i` when row `i` is processed. -/
theorem sor_foldl (A : ∀ i j, BlockOps R (X j) (Y i)) (inner : ∀ i, X i → Y i → X i) (w : R) (b : ∀ i, Y i)
    (l : List (Fin n)) (hl : l.Nodup) (v0 x v : ∀ i, X i) (hv : ∀ i ∈ l, v i = v0 i) :
    (l.foldl (sorRow A inner w b) (x, v)).1 =
      l.foldl (fun x i => Function.update x i (x i + w • inner i (v0 i) (calcRhs A x i (b i)))) x := by
  induction l generalizing x v with
  | nil => rfl
  | cons a l ih =>
    obtain ⟨ha, hl⟩ := List.nodup_cons.mp hl
    rw [List.foldl_cons, List.foldl_cons]
    have hs : sorRow A inner w b (x, v) a = (Function.update x a (x a + w • inner a (v0 a) (calcRhs A x a (b a))),
        Function.update v a (inner a (v a) (calcRhs A x a (b a)))) := by
      unfold sorRow
      simp only [Function.update_self]
      rw [← hv a (by simp)]
    rw [hs]
    refine ih hl _ _ ?_
    intro i hi
    have : i ≠ a := fun h => ha (h ▸ hi)
    rw [Function.update_of_ne this]
    exact hv i (by simp [hi])

/-- `Σ_j f_ij z_j` for `z` equal to `y` where `P` holds and to `x` elsewhere. -/
theorem sum_mixed (f : ∀ i j, X j → Y i) (i : Fin n) (P : Fin n → Prop) [DecidablePred P] (x y : ∀ i, X i) :
    ∑ j, f i j (if P j then y j else x j) =
      ∑ j ∈ Finset.univ.filter P, f i j (y j) + ∑ j ∈ Finset.univ.filter (fun j => ¬ P j), f i j (x j) := by
  rw [← Finset.sum_filter_add_sum_filter_not Finset.univ P]
  congr 1
  · exact Finset.sum_congr rfl fun j hj => by rw [if_pos (Finset.mem_filter.mp hj).2]
  · exact Finset.sum_congr rfl fun j hj => by rw [if_neg (Finset.mem_filter.mp hj).2]

end Steps
end MultiType
end Istl
