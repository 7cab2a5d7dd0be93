import Verif.Model.SeqMM
import Verif.Spec.MatrixMarket

/-!
# Histories of storing matrices and vectors under names
-/

namespace Istl
namespace MM

/-- The file a name stands for when something is stored: itself if it ends in `.mm` or `.mtx`, otherwise with `.mm` appended. -/
inductive Goes : List Char → List Char → Prop
  | mm (p : List Char) : Goes (p ++ ".mm".toList) (p ++ ".mm".toList)
  | mtx (p : List Char) : Goes (p ++ ".mtx".toList) (p ++ ".mtx".toList)
  | plain (f : List Char) (h : ∀ p, f ≠ p ++ ".mm".toList ∧ f ≠ p ++ ".mtx".toList) : Goes f (f ++ ".mm".toList)

/-- What is stored: a matrix or a vector with blocks of any size. -/
inductive Content (K : Type) where
  | mat (ct : CType) (r c : Nat) (A : SpMat (Fin r → Fin c → K))
  | vec (ct : CType) (k : Nat) (v : List (Fin k → K))

/-- One call of `storeMatrixMarket(content, name, prec)`. -/
structure Store (K : Type) where
  name : List Char
  prec : Int
  content : Content K

/-- The text of a matrix or vector, printed with `p` digits. -/
def Content.text {K : Type} (print : Nat → K → List Char) (p : Nat) : Content K → List Char
  | .mat ct _ _ A => writeMatrix ct (print p) A
  | .vec ct _ v => writeVector ct (print p) v

/-- A history of calls, one after the other. -/
def runStores {K : Type} (canOpen : List Char → Bool) (print : Nat → K → List Char) (hist : List (Store K)) (fs : FS) : Res FS :=
  hist.foldlM (fun fs s => storeSeq canOpen s.name s.prec (fun p => s.content.text print p) fs) fs

/-- The last thing that was stored in the file `n` is `s`. -/
def Latest {K : Type} (hist : List (Store K)) (n : List Char) (s : Store K) : Prop :=
  ∃ pre post, hist = pre ++ s :: post ∧ Goes s.name n ∧ ∀ x ∈ post, ¬Goes x.name n

/-- The digits asked for: a positive number is the precision, everything else is the 6 digits of C++ streams. -/
def Asks (prec : Int) (d : Nat) : Prop := (0 < prec ∧ (d : Int) = prec) ∨ (prec ≤ 0 ∧ d = 6)

end MM
end Istl
