import Verif.Lemmas.DenseIter

/-!
# C105: loops with iterators over the rows of a dense `Matrix`

A matrix with `n` rows and `m` columns that shows the values `M` (`DMat.Is`, as after any sequence of operations on it).
-/

namespace Istl
namespace DenseIter
open Iter (Dir)
variable {B τ : Type}

/-- A loop from `begin()` to `end()` with `++`, or from `beforeEnd()` to `beforeBegin()` with `--`, that changes every entry of the row by
`f` and carries a state: it ends, without access outside, and visits every entry of the matrix exactly once, row by row in the direction of the
loop, with the right indices. -/
theorem C105_loop {W n m : Nat} (hm : 0 < m) (hn : n < W) (hmW : m < W) (hW : n * m < W) {A : DMat B} {M : Nat → Nat → B} (hA : A.Is n m M)
    (d : Dir) (f : Nat → Nat → B → τ → B × τ) (s : τ) :
    ∃ A', A'.Is n m ((places n m d).foldl (visit f) (M, s)).1 ∧
      ∀ r, Loop W d f (stop W A d) (start W A d) (A, s) r ↔ r = .ok (A', ((places n m d).foldl (visit f) (M, s)).2) := by
  obtain ⟨A', h1, h2⟩ := loop_from hm hn hmW hW d f n (k := 0) (by omega) hA s
  have hp : ((List.range' 0 n).map (rowAt n d)).flatMap (rowPlaces m) = places n m d := by rw [rowOrder_eq]; rfl
  rw [hp] at h1 h2
  refine ⟨A', h1, fun r => ?_⟩
  rw [start_at hm hn hmW hW hA.1 hA.2.2.1 d, stop_at hm hn hmW hW hA.1 hA.2.2.1 d]
  exact h2 r

/-- `A.find(i)`: an iterator to row `i` with index `i`, through which exactly the entries of that row are seen; `A.end()` if there is no
row `i`. -/
theorem C105_find {W n m : Nat} (hm : 0 < m) (hW : n * m < W) {A : DMat B} {M : Nat → Nat → B} (hA : A.Is n m M) (i : Nat) :
    ((find W A i).equals (last W A) = true ↔ n ≤ i) ∧
      (i < n → (find W A i).i = i ∧ (find W A i).sz = m ∧ ∀ j, j < m → rd A.p ((find W A i).ptr + j) = .ok (M i j)) := by
  obtain ⟨h1, h2, h3, h4, h5⟩ := hA
  have hmin : min i n * m ≤ n * m := Nat.mul_le_mul_right m (Nat.min_le_right _ _)
  constructor
  · simp only [find, last, It.equals, It.make, h1, h3, beq_iff_eq, Nat.mod_eq_of_lt hW, Nat.mod_eq_of_lt (lt_of_le_of_lt hmin hW)]
    constructor
    · intro h
      have := Nat.eq_of_mul_eq_mul_right hm h
      omega
    · intro h
      rw [Nat.min_eq_right h]
  · intro hi
    have e : min i n = i := Nat.min_eq_left (Nat.le_of_lt hi)
    rw [e] at hmin
    refine ⟨by simp [find, It.make, h1, e], by simp [find, It.make, h3], fun j hj => ?_⟩
    have := h5 i j hi hj
    unfold DMat.get at this
    rw [h3] at this
    simp only [find, It.make, h1, h3, e, Nat.mod_eq_of_lt (lt_of_le_of_lt hmin hW)]
    exact this

/-- Iterators are compared by address only. A matrix with rows but without columns: every iterator is equal to every other one, a loop ends at
once and visits none of the `N()` rows, and `find(i)` is `end()` for rows that exist. -/
theorem C105_no_columns (W : Nat) (A : DMat B) (hc : A.columns = 0) (d : Dir) (f : Nat → Nat → B → τ → B × τ) (x : DMat B × τ) (i : Nat) :
    (find W A i).equals (last W A) = true ∧ ∀ r, Loop W d f (stop W A d) (start W A d) x r ↔ r = .ok x := by
  have he : (start W A d).equals (stop W A d) = true := by
    cases d <;> simp [start, stop, first, last, beforeEnd, beforeBegin, It.make, It.equals, hc]
  refine ⟨by simp [find, last, It.make, It.equals, hc], fun r => ⟨fun h => ?_, ?_⟩⟩
  · cases h with
    | done => rfl
    | next h1 => rw [he] at h1; exact absurd h1 (by simp)
    | throw h1 => rw [he] at h1; exact absurd h1 (by simp)
    | ub h1 => rw [he] at h1; exact absurd h1 (by simp)
  · rintro rfl
    exact .done he

/-! Concrete cases. -/

private def demo : DMat Int := ⟨[1, 2, 3, 4, 5, 6], 2, 3, 3⟩
private theorem demo_is : demo.Is 2 3 fun i j => 3 * i + j + 1 := by
  refine ⟨rfl, rfl, rfl, rfl, ?_⟩
  intro i j hi hj
  have : (i = 0 ∨ i = 1) ∧ (j = 0 ∨ j = 1 ∨ j = 2) := by omega
  rcases this with ⟨rfl | rfl, rfl | rfl | rfl⟩ <;> rfl

/-- Backwards, every entry times ten, collecting `(index, value)`: row 1 before row 0. -/
example : ∃ A', A'.Is 2 3 (fun i j => 10 * (3 * (i : Int) + j + 1)) ∧
    ∀ r, Loop (2 ^ 64) .down (fun i _ b (s : List (Nat × Int)) => (10 * b, s ++ [(i, b)])) (stop (2 ^ 64) demo .down) (start (2 ^ 64) demo .down)
      (demo, []) r ↔ r = .ok (A', [(1, 4), (1, 5), (1, 6), (0, 1), (0, 2), (0, 3)]) := by
  obtain ⟨A', h1, h2⟩ := C105_loop (W := 2 ^ 64) (by decide) (by decide) (by decide) (by decide) demo_is .down
    (fun i _ b (s : List (Nat × Int)) => (10 * b, s ++ [(i, b)])) []
  refine ⟨A', ⟨h1.1, h1.2.1, h1.2.2.1, h1.2.2.2.1, ?_⟩, h2⟩
  intro i j hi hj
  rw [h1.2.2.2.2 i j hi hj]
  have : (i = 0 ∨ i = 1) ∧ (j = 0 ∨ j = 1 ∨ j = 2) := by omega
  rcases this with ⟨rfl | rfl, rfl | rfl | rfl⟩ <;> rfl

example : (find (2 ^ 64) demo 1).i = 1 ∧ rd demo.p ((find (2 ^ 64) demo 1).ptr + 2) = .ok 6 ∧ (find (2 ^ 64) demo 9).equals (last (2 ^ 64) demo) = true := by
  obtain ⟨-, h⟩ := C105_find (W := 2 ^ 64) (by decide) (by decide) demo_is 1
  exact ⟨(h (by decide)).1, (h (by decide)).2.2 2 (by decide), (C105_find (W := 2 ^ 64) (by decide) (by decide) demo_is 9).1.2 (by decide)⟩

/-- `Matrix<…> A(5,0)` has five rows and none is visited. -/
example : ∀ r, Loop (2 ^ 64) .up (fun _ _ b (s : Nat) => (b, s + 1)) (last (2 ^ 64) (DMat.make (fun _ => (0 : Int)) 5 0))
    (first (2 ^ 64) (DMat.make (fun _ => (0 : Int)) 5 0)) (DMat.make (fun _ => (0 : Int)) 5 0, 0) r ↔
      r = .ok (DMat.make (fun _ => (0 : Int)) 5 0, 0) :=
  (C105_no_columns (2 ^ 64) (DMat.make (fun _ => (0 : Int)) 5 0) rfl .up (fun _ _ b (s : Nat) => (b, s + 1)) _ 0).2

end DenseIter
end Istl
