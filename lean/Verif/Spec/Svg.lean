import Verif.Model.Svg
import Mathlib.Algebra.BigOperators.Intervals

/-! # What the picture of a matrix shows -/

namespace Istl
namespace Svg
open Finset

/-- A rectangle as seen: what it is for, where its corner is in the whole picture, its size, and whether it lies inside all the pictures it is
nested in (otherwise it is clipped). -/
structure Box where
  rp : List Nat
  cp : List Nat
  number : Bool
  x : Nat
  y : Nat
  w : Nat
  h : Nat
  fits : Bool
deriving DecidableEq

/-- A nested picture: origin and size, and whether it is visible completely. -/
structure View where
  ox : Nat
  oy : Nat
  w : Nat
  h : Nat
  ok : Bool

/-- How a viewer draws the elements. -/
def draw : List Tok → List View → List Box
  | [], _ => []
  | .rect rp cp num x y w h :: l, v :: vs =>
    ⟨rp, cp, num, v.ox + x, v.oy + y, w, h, v.ok && decide (x + w ≤ v.w) && decide (y + h ≤ v.h)⟩ :: draw l (v :: vs)
  | .begin x y w h :: l, v :: vs => draw l (⟨v.ox + x, v.oy + y, w, h, v.ok && decide (x + w ≤ v.w) && decide (y + h ≤ v.h)⟩ :: v :: vs)
  | .finish :: l, _ :: vs => draw l vs
  | _ :: _, [] => []

/-- Where the block with index `k` begins, for blocks of sizes `w 0, w 1, ...` with space `s` before, between and after them. -/
def start (s : Nat) (w : Nat → Nat) (k : Nat) : Nat := s + ∑ a ∈ range k, (w a + s)

/-- `Pic o A wd ht P`: the blocks of `A` line up (at every level the blocks of one block column have the same width and those of one block row the
same height; empty block columns and rows are as wide as the narrowest other), the picture has width `wd` and height `ht`, and `P rp cp x y`
holds exactly when a number is stored with row indices `rp` and column indices `cp`, and belongs at `(x, y)`. -/
inductive Pic (o : Opts) : PMat → Nat → Nat → (List Nat → List Nat → Nat → Nat → Prop) → Prop
  | leaf (n m : Nat) (pat : Nat → List Nat) (hpat : ∀ i, i < n → (pat i).Nodup ∧ ∀ j ∈ pat i, j < m) :
      Pic o (.leaf n m pat) (start o.interspace (fun _ => o.blockSize) m) (start o.interspace (fun _ => o.blockSize) n) fun rp cp x y =>
        ∃ i j, i < n ∧ j ∈ pat i ∧ rp = [i] ∧ cp = [j] ∧ x = start o.interspace (fun _ => o.blockSize) j ∧ y = start o.interspace (fun _ => o.blockSize) i
  | node (n m : Nat) (pat : Nat → List Nat) (entry : Nat → Nat → PMat) (w h : Nat → Nat) (Q : Nat → Nat → List Nat → List Nat → Nat → Nat → Prop)
      (hpat : ∀ i, i < n → (pat i).Nodup ∧ ∀ j ∈ pat i, j < m) (hne : ∃ i, i < n ∧ pat i ≠ [])
      (hblk : ∀ i j, i < n → j ∈ pat i → Pic o (entry i j) (w j) (h i) (Q i j))
      (hw : ∀ j, j < m → (∀ i, i < n → j ∉ pat i) → (∃ k, k < m ∧ (∃ i, i < n ∧ k ∈ pat i) ∧ w j = w k) ∧ ∀ k, k < m → (∃ i, i < n ∧ k ∈ pat i) → w j ≤ w k)
      (hh : ∀ i, i < n → pat i = [] → (∃ k, k < n ∧ pat k ≠ [] ∧ h i = h k) ∧ ∀ k, k < n → pat k ≠ [] → h i ≤ h k) :
      Pic o (.node n m pat entry) (start o.interspace w m) (start o.interspace h n) fun rp cp x y =>
        ∃ i j rp' cp' x' y', i < n ∧ j ∈ pat i ∧ Q i j rp' cp' x' y' ∧ rp = i :: rp' ∧ cp = j :: cp' ∧ x = start o.interspace w j + x' ∧
          y = start o.interspace h i + y'

end Svg
end Istl
