import Verif.Model.Arpack
import Verif.Spec.SpMat
import Verif.Spec.Dense

/-!
# What the ARPACK++ wrapper has to do

The matrix as an ordinary matrix of numbers, eigenvectors, stretching, and what ARPACK promises (in exact arithmetic).
-/

namespace Istl
namespace Arpack

/-- The matrix of numbers: row `i` is component `i % p` of block row `i / p`, column `j` is component `j % q` of block column `j / q`. -/
noncomputable def flat (p q : Nat) (A : SpMat Blk) (i j : Nat) : ℝ := A.entry (i / p) (j / q) (i % p) (j % q)

/-- `M v` for a matrix of numbers with `c` columns. -/
noncomputable def mulVec (c : Nat) (M : Nat → Nat → ℝ) (v : Nat → ℝ) (i : Nat) : ℝ := ∑ j ∈ Finset.range c, M i j * v j

/-- `M^T v` for a matrix of numbers with `r` rows. -/
noncomputable def tmulVec (r : Nat) (M : Nat → Nat → ℝ) (v : Nat → ℝ) (j : Nat) : ℝ := ∑ i ∈ Finset.range r, M i j * v i

/-- The square of the Euclidean norm of a vector with `n` components. -/
noncomputable def normSq (n : Nat) (v : Nat → ℝ) : ℝ := ∑ i ∈ Finset.range n, v i * v i

/-- `f`, not zero, is an eigenvector of the linear map `T` on vectors with `n` components. -/
def IsEig (n : Nat) (T : (Nat → ℝ) → Nat → ℝ) (lam : ℝ) (f : Nat → ℝ) : Prop :=
  (∃ i < n, f i ≠ 0) ∧ ∀ i < n, T f i = lam * f i

/-- The numbers in a block vector with blocks of size `k`. -/
def BVec.flat (k : Nat) (b : BVec) (i : Nat) : ℝ := b.at' (i / k) (i % k)

/-- The array `X` is an eigenvector of what the program computes. -/
def EigPair (n : Nat) (op : List ℝ → Res (List ℝ)) (lam : ℝ) (X : List ℝ) : Prop :=
  X.length = n ∧ (∃ z ∈ X, z ≠ 0) ∧ op X = .ok (X.map (fun z => lam * z))

/-- Which eigenvalues were asked for: largest and smallest magnitude, largest and smallest, both ends in ascending order. -/
def Selected (n : Nat) (op : List ℝ → Res (List ℝ)) (which : Which) (ev : List ℝ) : Prop :=
  ∀ mu X, EigPair n op mu X → match which with
    | .LM => ∀ z ∈ ev, |mu| ≤ |z|
    | .SM => ∀ z ∈ ev, |z| ≤ |mu|
    | .LA => ∀ z ∈ ev, mu ≤ z
    | .SA => ∀ z ∈ ev, z ≤ mu
    | .BE => ∀ lo hi, ev = [lo, hi] → lo ≤ mu ∧ mu ≤ hi

/-- A right answer of ARPACK for `nev` eigenvalues. -/
def Answer (n nev : Nat) (op : List ℝ → Res (List ℝ)) (which : Which) (r : List ℝ × List (List ℝ)) : Prop :=
  r.1.length = nev ∧ r.2.length = nev ∧ (∀ (k : Nat) (lam : ℝ) (X : List ℝ), r.1[k]? = some lam → r.2[k]? = some X → EigPair n op lam X) ∧ Selected n op which r.1

/-- ARPACK++ in exact arithmetic: if it returns, the answer is right. -/
def Sound (ar : Eig) : Prop := ∀ n nev op which r, ar n nev op which = .ok r → Answer n nev op which r

/-- ARPACK++ does nothing undefined as long as the product does not: its answer is an answer or an exception. -/
def Safe (ar : Eig) : Prop := ∀ n nev op which, (∀ v, v.length = n → op v ≠ .ub) → ar n nev op which ≠ .ub

/-- `sig` is the largest stretching factor of the `r` times `c` matrix `M`, reached at `f`. -/
def MaxStretch (r c : Nat) (M : Nat → Nat → ℝ) (sig : ℝ) (f : Nat → ℝ) : Prop :=
  0 ≤ sig ∧ (∃ i < c, f i ≠ 0) ∧ normSq r (mulVec c M f) = sig ^ 2 * normSq c f ∧
    ∀ v, normSq r (mulVec c M v) ≤ sig ^ 2 * normSq c v

/-- `sig` is the smallest one. -/
def MinStretch (r c : Nat) (M : Nat → Nat → ℝ) (sig : ℝ) (f : Nat → ℝ) : Prop :=
  0 ≤ sig ∧ (∃ i < c, f i ≠ 0) ∧ normSq r (mulVec c M f) = sig ^ 2 * normSq c f ∧
    ∀ v, sig ^ 2 * normSq c v ≤ normSq r (mulVec c M v)

/-- `c` is the spectral condition number of a symmetric matrix: largest over smallest magnitude of its eigenvalues. -/
def IsCond (n : Nat) (M : Nat → Nat → ℝ) (c : ℝ) : Prop :=
  ∃ big small f g, IsEig n (mulVec n M) big f ∧ IsEig n (mulVec n M) small g ∧ small ≠ 0 ∧ c = |big| / |small| ∧
    ∀ mu h, IsEig n (mulVec n M) mu h → |small| ≤ |mu| ∧ |mu| ≤ |big|

end Arpack
end Istl

namespace Istl
namespace Arpack

/-- The wrapper of `A` after any number of products: only the contents of its two auxiliary vectors have changed. -/
def Of (p q : Nat) (A : SpMat Blk) (W : Wrapped) : Prop :=
  W.A = A ∧ W.m = (wrap p q A).m ∧ W.n = (wrap p q A).n ∧ W.dom.n = (wrap p q A).dom.n ∧ W.ran.n = (wrap p q A).ran.n

/-- The array is mapped to the array with the numbers `T f`, without any access outside. -/
def Computes (n k : Nat) (op : List ℝ → Res (List ℝ)) (T : (Nat → ℝ) → Nat → ℝ) : Prop :=
  ∀ v f, VecIs v n f → ∃ w, op v = .ok w ∧ VecIs w k (T f)

end Arpack
end Istl
