import Verif.Model.BcrsCalls

/-!
# Specification: which construction call is allowed when
-/

namespace Istl
namespace Bcrs
variable {B : Type}

/-- The documented order of construction calls: what may be called in which build mode and stage. (`setIndices` and
`setIndicesNoSort` are documented to be for random mode between `endrowsizes` and `endindices`, but the code never refuses
them: they count as always permitted here.) -/
def Permitted : Call B → BuildMode → Stage → Prop
  | .setSize .., _, _ => True
  | .setBuildMode bm, mode, stage =>
    stage = .notAllocated ∨ (stage = .building ∧ mode ≠ .implicit ∧ (bm = .rowWise ∨ bm = .random))
  | .setParameters .., _, stage => stage = .notAllocated
  | .setrowsize .., mode, stage | .incrementrowsize .., mode, stage | .endrowsizes, mode, stage =>
    mode = .random ∧ stage = .building
  | .addindex .., mode, stage | .endindices, mode, stage => mode = .random ∧ stage = .rowSizesBuilt
  | .setIndices .., _, _ | .setIndicesNoSort .., _, _ => True
  | .createbegin, mode, stage => (mode = .rowWise ∨ mode = .unknown) ∧ stage = .building
  | .nextRow _, _, stage => stage = .building
  | .entry .., mode, stage | .compress, mode, stage => mode = .implicit ∧ stage = .building

/-- The program has what it needs to write the call down: `++it` needs an iterator. -/
def Call.Writable (c : Call B) (x : Site B) : Prop := ∀ cols, c = .nextRow cols → x.it.isSome = true

/-- All histories of a matrix: from the default constructor by any calls in any order, with any exceptions caught. The trace
lists the calls in order, with `true` for a normal return and `false` for an exception. -/
inductive Runs (h : Heap B) : Site B → List (Call B × Bool) → Prop
  | start : Runs h ⟨⟨h, empty⟩, none⟩ []
  | ok {x y : Site B} {t} (c : Call B) : Runs h x t → c.exec x = .ok () y → Runs h y (t ++ [(c, true)])
  | throw {x y : Site B} {t} (c : Call B) (e : Exc) : Runs h x t → c.exec x = .throw e y → Runs h y (t ++ [(c, false)])

/-- kinds of calls -/
def Call.isSetSize : Call B → Bool
  | .setSize .. => true
  | _ => false
def Call.isUnchecked : Call B → Bool
  | .setIndices .. => true
  | .setIndicesNoSort .. => true
  | _ => false
def Call.isInsertion : Call B → Bool
  | .addindex .. => true
  | .setIndices .. => true
  | .setIndicesNoSort .. => true
  | _ => false
def Call.isEntry : Call B → Bool
  | .entry .. => true
  | _ => false
def Call.isNextRow : Call B → Bool
  | .nextRow .. => true
  | _ => false
def Call.isCreatebegin : Call B → Bool
  | .createbegin => true
  | _ => false

/-- The calls that returned normally since the last `setSize`, in order. -/
def sinceSetSize (t : List (Call B × Bool)) : List (Call B) :=
  (((t.reverse.takeWhile fun c => !c.1.isSetSize).reverse).filter fun c => c.2).map Prod.fst

/-- The calls form one of the three documented complete sequences for a matrix with `n` rows. Calls to the unchecked
`setIndices` may be scattered anywhere.
* random: `endrowsizes`, insertions, `endindices`;
* implicit: entries, `compress`;
* row-wise: `createbegin`, then one `++` for each of the `n` rows with no restart in between, with nothing after the last one. -/
inductive Complete (n : Nat) (l : List (Call B)) : Prop
  | random (a b u : List (Call B)) (hl : l = a ++ [.endrowsizes] ++ b ++ [.endindices] ++ u)
      (hb : ∀ c ∈ b, c.isInsertion = true) (hu : ∀ c ∈ u, c.isUnchecked = true)
  | implicit (a u : List (Call B)) (hl : l = a ++ [.compress] ++ u)
      (ha : ∀ c ∈ a, c.isEntry = true ∨ c.isUnchecked = true) (hu : ∀ c ∈ u, c.isUnchecked = true)
  | rowWise (a b u : List (Call B)) (hl : l = a ++ [.createbegin] ++ b ++ u)
      (hb : b.countP Call.isNextRow = n) (hc : ∀ c ∈ b, c.isCreatebegin = false)
      (he : b = [] ∨ ∃ b' cols, b = b' ++ [.nextRow cols]) (hu : ∀ c ∈ u, c.isUnchecked = true)

end Bcrs
end Istl
