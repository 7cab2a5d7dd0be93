import Verif.Model.VbVector

/-!
# What a `VariableBlockVector` means
Its value is the list of its blocks (or, before the sizes are final, the list of block sizes). Different vectors are independent values.
-/

namespace Istl
namespace VbV
variable {B : Type}

/-- The value of a vector. -/
inductive Val (B : Type) where
  | uninit (sizes : List Nat)
  | init (blocks : List (List B))

/-- Calls of a program that uses several vectors. New vectors get the next number. -/
inductive Op (B : Type) where
  | newEmpty
  | newN (nb : Nat)
  | newConst (nb bs : Nat)
  | copy (i : Nat)
  | move (i : Nat)
  | del (i : Nat)
  | assign (i j : Nat)
  | swap (i j : Nat)
  | resizeN (i nb : Nat)
  | resizeConst (i nb bs : Nat)
  | create (i : Nat) (sizes : List (Option Nat))
  | write (i b k : Nat) (x : B)
  | flat (f : B → B → B) (i j : Nat)

/-- Values of all vectors; `none`: destroyed. -/
abbrev Vals (B : Type) := List (Option (Val B))

/-- sizes of the blocks -/
def Val.sizes : Val B → List Nat
  | .uninit s => s
  | .init b => b.map List.length

/-- all elements, block after block -/
def Val.elems : Val B → List B
  | .uninit _ => []
  | .init b => b.flatten

/-- Cut a list into `nb` pieces of `bs` elements. -/
def cut (nb bs : Nat) (l : List B) : List (List B) := (List.range nb).map fun i => (l.drop (i * bs)).take bs

/-- `l` cut or padded to length `k` -/
def fit (z : B) (k : Nat) (l : List B) : List B := l.take k ++ List.replicate (k - l.length) z

/-- The call is allowed: it uses existing vectors, element access is in range, sizes match, and the building loop runs over all blocks of a vector
that has at least one block and is not initialised. -/
def Op.Valid (a : Vals B) : Op B → Prop
  | .newEmpty => True
  | .newN _ => True
  | .newConst _ _ => True
  | .copy i => ∃ v, a[i]? = some (some v)
  | .move i => ∃ v, a[i]? = some (some v)
  | .del i => ∃ v, a[i]? = some (some v)
  | .assign i j => (∃ v, a[i]? = some (some v)) ∧ ∃ v, a[j]? = some (some v)
  | .swap i j => (∃ v, a[i]? = some (some v)) ∧ ∃ v, a[j]? = some (some v)
  | .resizeN i _ => ∃ v, a[i]? = some (some v)
  | .resizeConst i _ _ => ∃ v, a[i]? = some (some v)
  | .create i sizes => ∃ s, a[i]? = some (some (.uninit s)) ∧ sizes.length = s.length ∧ 0 < s.length
  | .write i b k _ => ∃ bl l, a[i]? = some (some (.init bl)) ∧ bl[b]? = some l ∧ k < l.length
  | .flat _ i j => ∃ bl bl', a[i]? = some (some (.init bl)) ∧ a[j]? = some (some (.init bl')) ∧ bl.map List.length = bl'.map List.length

/-- value of vector `i` -/
def valOf (a : Vals B) (i : Nat) : Val B :=
  match a[i]? with
  | some (some v) => v
  | _ => .uninit []

/-- The effect of a call on the values. -/
def Op.apply (z : B) (a : Vals B) : Op B → Vals B
  | .newEmpty => a ++ [some (.uninit [])]
  | .newN nb => a ++ [some (.uninit (List.replicate nb 0))]
  | .newConst nb bs => a ++ [some (.init (List.replicate nb (List.replicate bs z)))]
  | .copy i => a ++ [some (valOf a i)]
  | .move i => a.set i (some (.uninit [])) ++ [some (valOf a i)]
  | .del i => a.set i none
  | .assign i j => a.set i (some (valOf a j))
  | .swap i j => (a.set i (some (valOf a j))).set j (some (valOf a i))
  | .resizeN i nb => a.set i (some (.uninit (fit 0 nb (valOf a i).sizes)))
  | .resizeConst i nb bs => a.set i (some (.init (cut nb bs (fit z (nb * bs) (valOf a i).elems))))
  | .create i sizes => a.set i (some (.init ((List.zipWith (fun new old => new.getD old) sizes (valOf a i).sizes).map fun k => List.replicate k z)))
  | .write i b k x => a.set i (some (match valOf a i with
      | .init bl => .init (bl.modify b fun l => l.set k x)
      | v => v))
  | .flat f i j => a.set i (some (match valOf a i, valOf a j with
      | .init bl, .init bl' => .init (List.zipWith (List.zipWith f) bl bl')
      | v, _ => v))

/-- The program that makes the call. -/
def Op.run (w : World B) : Op B → Res (World B)
  | .newEmpty => .ok { w with objs := w.objs ++ [some ctorEmpty] }
  | .newN nb => .ok { w with objs := w.objs ++ [some (ctorN nb)] }
  | .newConst nb bs =>
    let r := ctorConst w.mem w.z nb bs
    .ok { w with mem := r.1, objs := w.objs ++ [some r.2] }
  | .copy i => do
    let o ← w.obj i
    let r ← copyCtor w.mem o
    .ok { w with mem := r.1, objs := w.objs ++ [some r.2] }
  | .move i => do
    let o ← w.obj i
    let r := moveCtor o
    .ok { w with objs := w.objs.set i (some r.2) ++ [some r.1] }
  | .del i => do
    let o ← w.obj i
    let M ← dtor w.mem o
    .ok { w with mem := M, objs := w.objs.set i none }
  | .assign i j => do
    let o ← w.obj i
    let y ← w.obj j
    let r ← VbV.assign w.mem o y
    .ok { w with mem := r.1, objs := w.objs.set i (some r.2) }
  | .swap i j => do
    let o ← w.obj i
    let y ← w.obj j
    let r := VbV.swap o y
    .ok { w with objs := (w.objs.set i (some r.1)).set j (some r.2) }
  | .resizeN i nb => do
    let o ← w.obj i
    let r ← VbV.resizeN w.mem w.z o nb
    .ok { w with mem := r.1, objs := w.objs.set i (some r.2) }
  | .resizeConst i nb bs => do
    let o ← w.obj i
    let r ← VbV.resizeConst w.mem w.z o nb bs
    .ok { w with mem := r.1, objs := w.objs.set i (some r.2) }
  | .create i sizes => do
    let o ← w.obj i
    let r ← VbV.create w.mem w.z o sizes
    .ok { w with mem := r.1, objs := w.objs.set i (some r.2) }
  | .write i b k x => do
    let o ← w.obj i
    let M ← writeElem w.mem o b k x
    .ok { w with mem := M }
  | .flat f i j => do
    let o ← w.obj i
    let y ← w.obj j
    let M ← flatOp f w.mem o y
    .ok { w with mem := M }

/-- Every call is allowed at its time. -/
def AllValid (z : B) : Vals B → List (Op B) → Prop
  | _, [] => True
  | a, op :: ops => op.Valid a ∧ AllValid z (op.apply z a) ops

end VbV
end Istl
