import Verif.Model.VecIter
import Verif.Spec.BlockVec
import Verif.Spec.Iter

/-! # What loops over vectors and windows should do -/

namespace Istl.BVec
open Istl.Iter (Dir)
variable {B τ : Type}

/-- The name stands for the blocks `[off, off+len)` of the vector `x`. -/
def Covers (w : World B) (vals : Vals B) (x off len : Nat) : Name → Prop
  | .vec y => y = x ∧ off = 0 ∧ ∃ l, vals x = some l ∧ len = l.length
  | .win k => Aims w k x off len

/-- The program on plain lists: for each `i` of the list in turn, `f` is called with `i`, the entry `l[off+i]` and the
state; the entry is replaced if `f` says so. -/
def sweep (off : Nat) (f : Nat → B → τ → Option B × τ) : List Nat → List B × τ → List B × τ
  | [], st => st
  | i :: is, (l, s) =>
    match l[off + i]? with
    | none => sweep off f is (l, s)
    | some b =>
      match f i b s with
      | (none, s1) => sweep off f is (l, s1)
      | (some y, s1) => sweep off f is (l.set (off + i) y, s1)

end Istl.BVec
