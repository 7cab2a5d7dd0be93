import Verif.Model.Bcrs

/-!
# All construction calls on one `BCRSMatrix`, in any order
The build with DUNE_ISTL_WITH_CHECKING as far as `entry` is concerned.
-/

namespace Istl
namespace Bcrs
variable {B : Type}

/-- The construction calls of `BCRSMatrix`. dune/istl/bcrsmatrix.hh:823-894 (`setBuildMode`, `setSize`,
`setImplicitBuildModeParameters`), 960-1082 (`createbegin`, `CreateIterator`), 1103-1296 (random mode), 1312-1512 (implicit mode).
`nextRow cols` stands for `insert` of the given columns into the current row followed by `++`. -/
inductive Call (B : Type) where
  | setBuildMode (bm : BuildMode)
  | setParameters (avg : Nat) (cbs : ℚ)
  | setSize (rows cols nnz : Nat)
  | setrowsize (i sz : Nat)
  | incrementrowsize (i sz : Nat)
  | endrowsizes
  | addindex (i j : Nat)
  | setIndices (i : Nat) (cols : List Nat)
  | setIndicesNoSort (i : Nat) (cols : List Nat)
  | endindices
  | createbegin
  | nextRow (cols : List Nat)
  | entry (i j : Nat) (f : B → B)
  | compress

/-- A matrix under construction together with the create iterator the program holds. Simplification: only the one obtained last;
iterators obtained before a `setSize` are not used any more. -/
structure Site (B : Type) where
  s : St B
  it : Option CIter

/-- Run a call that does not involve the iterator. -/
def onMatrix (c : BC B Unit) (it : Option CIter) (x : Site B) : Out (Site B) Unit :=
  match c x.s with
  | .ok _ s => .ok () ⟨s, it⟩
  | .throw e s => .throw e ⟨s, it⟩
  | .ub => .ub

/-- Run a call that returns a new iterator; after an exception the program still has the old one.
dune/istl/bcrsmatrix.hh:978-1043, 1079-1082. -/
def onIter (c : BC B CIter) (x : Site B) : Out (Site B) Unit :=
  match c x.s with
  | .ok it s => .ok () ⟨s, some it⟩
  | .throw e s => .throw e ⟨s, x.it⟩
  | .ub => .ub

/-- Execution of one call, see `Call` for the places in dune/istl/bcrsmatrix.hh. Without an iterator `nextRow` cannot be called. -/
def Call.exec : Call B → Site B → Out (Site B) Unit
  | .setBuildMode bm, x => onMatrix (Bcrs.setBuildMode bm) x.it x
  | .setParameters avg cbs, x => onMatrix (setImplicitBuildModeParameters avg cbs) x.it x
  | .setSize r c k, x => onMatrix (Bcrs.setSize r c k) none x
  | .setrowsize i sz, x => onMatrix (Bcrs.setrowsize i sz) x.it x
  | .incrementrowsize i sz, x => onMatrix (Bcrs.incrementrowsize i sz) x.it x
  | .endrowsizes, x => onMatrix Bcrs.endrowsizes x.it x
  | .addindex i j, x => onMatrix (Bcrs.addindex i j) x.it x
  | .setIndices i cols, x => onMatrix (Bcrs.setIndices i cols) x.it x
  | .setIndicesNoSort i cols, x => onMatrix (Bcrs.setIndicesNoSort i cols) x.it x
  | .endindices, x => onMatrix Bcrs.endindices x.it x
  | .createbegin, x => onIter Bcrs.createbegin x
  | .nextRow cols, x =>
    match x.it with
    | none => .ub
    | some c => onIter (cols.foldl CIter.insert c).next x
  | .entry i j f, x => onMatrix (entryChecked i j f) x.it x
  | .compress, x => onMatrix Bcrs.compress x.it x

end Bcrs
end Istl
