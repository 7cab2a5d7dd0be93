import Verif.Model.Dense

/-! # What a dense matrix object and a vector object stand for -/

namespace Istl

/-- The vector object `y` has `n` entries and entry `i` is `f i`. -/
def VecIs {Y : Type} (y : List Y) (n : Nat) (f : Nat → Y) : Prop :=
  y.length = n ∧ ∀ i, i < n → rd y i = .ok (f i)

/-- The matrix object `A` is a proper `n x m` matrix (`N()=n`, `M()=m`, and its array has exactly `n*m` blocks) whose
element `A[i][j]` is `F i j`. -/
def DMat.Is {B : Type} (A : DMat B) (n m : Nat) (F : Nat → Nat → B) : Prop :=
  A.rows = n ∧ A.cols = m ∧ A.columns = m ∧ A.p.length = n * m ∧
    ∀ i j, i < n → j < m → A.get i j = .ok (F i j)

end Istl
