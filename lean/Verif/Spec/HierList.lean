import Verif.Model.HierList

/-!
# What a user sees of a `Hierarchy`

Only calls of the interface are used: walking with `++` from `finest()` and with `--` from `coarsest()`.
-/

namespace Istl
namespace HList

variable {T : Type}

/-- What is at one level: which level it is (what comparing iterators sees), the object, the redistributed object if there is one. -/
structure Lev where
  el : Nat
  obj : Nat
  red : Option Nat

/-- Looking through the iterator `i` gives `x`. -/
def Shows (s : St T) (i : Nat) (x : Lev) : Prop :=
  s.its i = some (some x.el) ∧ itObj s i = .ok x.obj ∧ isRedistributed s i = .ok x.red.isSome ∧
    ∀ o, x.red = some o → getRedistributed s i = .ok o

/-- `while (it != end) { look; ++it; }` sees `l`. -/
inductive WalkUp (i : Nat) : St T → List Lev → Prop where
  | stop {s : St T} : s.its i = some none → WalkUp i s []
  | go {s s' : St T} {x : Lev} {l : List Lev} : Shows s i x → itInc i s = .ok s' → WalkUp i s' l → WalkUp i s (x :: l)

/-- `while (it != end) { look; --it; }` sees `l`. -/
inductive WalkDown (i : Nat) : St T → List Lev → Prop where
  | stop {s : St T} : s.its i = some none → WalkDown i s []
  | go {s s' : St T} {x : Lev} {l : List Lev} : Shows s i x → itDec i s = .ok s' → WalkDown i s' l → WalkDown i s (x :: l)

/-- The hierarchy `h` consists of the levels `l`, from fine to coarse: this is what both walks and `levels()` say. -/
def Contents (s : St T) (h : Nat) (l : List Lev) : Prop :=
  levels s h = .ok l.length ∧ (∃ s', itFinest h s = .ok s' ∧ WalkUp s.nI s' l) ∧ ∃ s', itCoarsest h s = .ok s' ∧ WalkDown s.nI s' l.reverse

/-- Calls other than the copy assignment, and no exception from the construction of an object. -/
def Op.Plain : Op T → Prop
  | .assign _ _ => False
  | .add _ none => False
  | _ => True

/-- A state a program can get into with such calls. -/
def Reachable (s : St T) : Prop := ∃ dflt ops, (∀ o ∈ ops, Op.Plain o) ∧ run (init dflt) ops = .ok s

/-- The names and positions of the call exist. -/
def Op.Valid (s : St T) : Op T → Prop
  | .obj _ => True
  | .mk o => o < s.nOb
  | .empty => True
  | .copy h => s.hs h ≠ none
  | .assign h g => s.hs h ≠ none ∧ s.hs g ≠ none
  | .destroy h => s.hs h ≠ none
  | .addRed h _ => ∃ n, levels s h = .ok n ∧ 0 < n
  | .add h _ => s.hs h ≠ none
  | .fin h => s.hs h ≠ none
  | .coa h => s.hs h ≠ none
  | .itCopy i => s.its i ≠ none
  | .inc i => ∃ e, s.its i = some (some e)
  | .dec i => ∃ e, s.its i = some (some e)
  | .itDestroy _ => True
  | .itAdd i o => (∃ e, s.its i = some (some e)) ∧ o < s.nOb
  | .itDel i => ∃ e, s.its i = some (some e)
  | .write o _ => o < s.nOb

/-- The call works on the hierarchy `h` with levels `l`. -/
def Op.Touches (s : St T) (h : Nat) (l : List Lev) : Op T → Prop
  | .destroy g => g = h
  | .addRed g _ => g = h
  | .add g _ => g = h
  | .itAdd i _ => ∃ x ∈ l, s.its i = some (some x.el)
  | .itDel i => ∃ x ∈ l, s.its i = some (some x.el)
  | _ => False

/-- The call moves or ends the iterator `i`. -/
def Op.Moves (i : Nat) : Op T → Prop
  | .inc j => j = i
  | .dec j => j = i
  | .itDestroy j => j = i
  | _ => False

/-- All objects of some levels. -/
def objects (l : List Lev) : List Nat := l.flatMap (fun x => x.obj :: x.red.toList)

/-- A level and its copy: other objects with the same values. -/
def SameLev (s t : St T) (x y : Lev) : Prop :=
  t.ob y.obj = s.ob x.obj ∧ x.red.isSome = y.red.isSome ∧ ∀ a b, x.red = some a → y.red = some b → t.ob b = s.ob a

end HList
end Istl
