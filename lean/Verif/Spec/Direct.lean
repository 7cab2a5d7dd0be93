import Verif.Model.Direct
import Mathlib.Data.List.Perm.Basic

/-!
# What a program may do with a direct solver object, and what it must observe

The specification of a wrapper object is a small machine that only remembers which matrix was set last: for every call it
says whether it is allowed and what it reports.
-/

namespace Istl
namespace Direct

/-- Well formed heaps: block numbers are used once. -/
def Heap.Ok (H : Heap) : Prop := (H.live.map Prod.fst).Nodup ∧ ∀ b ∈ H.live, b.1 < H.next

/-- Exactly the same blocks are allocated: nothing was leaked and nothing foreign was released. -/
def SameBlocks (H H' : Heap) : Prop := H.live.Perm H'.live

/-- As `SameBlocks`, with `k` further blocks that nobody will ever release. -/
def Leaks (k : Nat) (H H' : Heap) : Prop := ∃ l : List (Nat × Nat), l.length = k ∧ (l ++ H.live).Perm H'.live

namespace Ldl

/-- The calls the wrapper supports; the argument is the size of the matrix set last. -/
def Allowed : Option Nat → List Op → Prop
  | _, [] => True
  | _, .setMatrix N M _ _ f :: cs => 0 < N ∧ N = M ∧ f ≠ .amdFails ∧ Allowed (some N) cs
  | s, .apply bs xs :: cs => (∀ n, s = some n → n ≤ bs ∧ n ≤ xs) ∧ Allowed s cs
  | s, .free :: cs => s ≠ none ∧ Allowed none cs

/-- What the calls report; the argument tells whether there is a complete factorization. -/
def expected : Bool → List Op → List Ret
  | _, [] => []
  | _, .setMatrix _ _ _ _ f :: cs =>
    (if f = .success then .done else .threw .invalidState) :: expected (f = .success) cs
  | g, .apply _ _ :: cs => .solved g :: expected g cs
  | _, .free :: cs => .done :: expected false cs

end Ldl

namespace Umf

/-- What the object holds: nothing, a matrix of `N × M` scalars with a factorization (`good`) or without, or a factorization
loaded from a file. -/
inductive Held where
  | nothing
  | matrix (N M : Nat) (good : Bool)
  | file

/-- What the object holds after `setMatrix`. -/
def Held.set (empty : Bool) (N M : Nat) (symOk numOk : Bool) : Held :=
  if empty then .nothing else .matrix N M (symOk && numOk)

/-- Matrices the wrapper supports: something is left when the ignored rows are removed, and it is square. -/
def Fine (empty : Bool) (N M : Nat) : Prop := empty = false → 0 < N ∧ N = M

/-- The calls the wrapper supports. -/
def Allowed : Held → List Op → Prop
  | _, [] => True
  | _, .setMatrix e N M _ s n :: cs => Fine e N M ∧ Allowed (.set e N M s n) cs
  | _, .setSubMatrix N M _ s n :: cs => Fine false N M ∧ Allowed (.set false N M s n) cs
  | h, .apply _ _ _ :: cs => Allowed h cs
  | h, .applyC :: cs => (∃ N M g, h = .matrix N M g) ∧ Allowed h cs
  | h, .save _ :: cs => h ≠ .nothing ∧ Allowed h cs
  | h, .free :: cs => h ≠ .nothing ∧ Allowed .nothing cs

/-- Vectors without scalars have no blocks (block sizes are positive). -/
def Blocky : List Op → Prop
  | [] => True
  | .apply bd _ bs :: cs => (bd = 0 → bs = 0) ∧ Blocky cs
  | _ :: cs => Blocky cs

/-- What `apply(x, b, res)` reports: a loaded factorization has no sizes, so only empty vectors fit. -/
def expectedApply (h : Held) (bd xd bs : Nat) : Ret :=
  let dims : Nat × Nat := match h with | .matrix N M _ => (N, M) | _ => (0, 0)
  if bd ≠ dims.1 ∨ xd ≠ dims.2 then .threw .istlError
  else if bs = 0 then .unchanged
  else .solved (match h with | .matrix _ _ g => g | _ => false)

/-- What `saveDecomposition` reports. -/
def expectedSave (h : Held) (io : Bool) : Ret :=
  let good : Bool := match h with | .matrix _ _ g => g | .file => true | .nothing => false
  if good && io then .done else .threw .exception

/-- What the calls report. -/
def expected : Held → List Op → List Ret
  | _, [] => []
  | _, .setMatrix e N M _ s n :: cs => .done :: expected (.set e N M s n) cs
  | _, .setSubMatrix N M _ s n :: cs => .done :: expected (.set false N M s n) cs
  | h, .apply bd xd bs :: cs => expectedApply h bd xd bs :: expected h cs
  | h, .applyC :: cs => .solved (match h with | .matrix _ _ g => g | _ => false) :: expected h cs
  | h, .save io :: cs => expectedSave h io :: expected h cs
  | _, .free :: cs => .done :: expected .nothing cs

/-- What the object holds after construction; `none` when the constructor throws. -/
def heldBy : Ctor → Option Held
  | .default => some .nothing
  | .matrix e N M _ s n => some (.set e N M s n)
  | .file ok => if ok then some .file else none
  | .fileOr load e N M _ s n io =>
    if load then some .file else if !e && s && n && io then some (.set e N M s n) else none

/-- The constructor calls the wrapper supports without leaking (a decomposition that is computed because the file cannot be
read must also be saved). -/
def AllowedCtor : Ctor → Prop
  | .default => True
  | .matrix e N M _ _ _ => Fine e N M
  | .file _ => True
  | .fileOr load e N M _ s n io => load = false → Fine e N M ∧ (e = true ∨ (s && n && io) = true)

end Umf

namespace Spqr

/-- The calls the wrapper supports; the argument: nothing was ever set, nothing is set now, or a matrix of `N × M` scalars. -/
def Allowed : Option (Option (Nat × Nat)) → List Op → Prop
  | _, [] => True
  | _, .setMatrix N M _ :: cs => 0 < N + M ∧ Allowed (some (some (N, M))) cs
  | s, .apply bs xs :: cs => s ≠ none ∧ (∀ d, s = some (some d) → d.1 ≤ bs ∧ d.2 ≤ xs) ∧ Allowed s cs
  | s, .free :: cs => (∃ d, s = some (some d)) ∧ Allowed (some none) cs

/-- What the calls report; the argument tells whether a matrix is set. -/
def expected : Bool → List Op → List Ret
  | _, [] => []
  | _, .setMatrix _ _ _ :: cs => .done :: expected true cs
  | g, .apply _ _ :: cs => .solved g :: expected g cs
  | _, .free :: cs => .done :: expected false cs

end Spqr

namespace Slu

/-- What the object holds: nothing or a matrix with its sizes, and whether the library could factor it. -/
abbrev Held := Option (Nat × Nat × Bool)

/-- The calls the wrapper supports. -/
def Allowed : Held → List Op → Prop
  | _, [] => True
  | _, .setMatrix sub N M _ g :: cs => 0 < N + M ∧ (sub = false → N ≤ M) ∧ Allowed (some (N, M, g)) cs
  | h, .apply _ _ :: cs => Allowed h cs
  | h, .applyC :: cs => Allowed h cs
  | h, .free :: cs => h ≠ none ∧ Allowed none cs

/-- What the two `apply`s report; `fits` tells whether the sizes of the vectors are those of the matrix. -/
def expectedApply (h : Held) (fits : Nat → Nat → Prop) [∀ a b, Decidable (fits a b)] : Ret :=
  match h with
  | none => .threw .istlError
  | some (N, M, g) => if fits N M then .solved g else .threw .istlError

/-- What the calls report. -/
def expected : Held → List Op → List Ret
  | _, [] => []
  | _, .setMatrix _ N M _ g :: cs => .done :: expected (some (N, M, g)) cs
  | h, .apply bd xd :: cs => expectedApply h (fun N M => bd = N ∧ xd = M) :: expected h cs
  | h, .applyC :: cs => expectedApply h (fun _ _ => True) :: expected h cs
  | _, .free :: cs => .done :: expected none cs

end Slu
end Direct
end Istl
