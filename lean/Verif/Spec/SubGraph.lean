import Verif.Model.SubGraph

/-! # Specification: the graph on the vertices that are not excluded -/

namespace Istl
namespace Amg

/-- The vertices that are not excluded, in ascending order. -/
def included (n : Nat) (ex : List Bool) : List Nat := (List.range n).filter fun v => ex.getD v false = false

/-- The edges of the matrix graph between vertices that are not excluded. -/
def Joined (G : Graph) (ex : List Bool) (u t : Nat) : Prop :=
  ex.getD u false = false ∧ ex.getD t false = false ∧ t ∈ G.adj u

end Amg
end Istl
