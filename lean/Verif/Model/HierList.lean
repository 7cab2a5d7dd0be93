import Verif.Basic
import Verif.Model.SpMat
import Mathlib.Logic.Relation

/-!
# The container `Hierarchy` of the AMG

dune/istl/paamg/hierarchy.hh. List elements and stored objects live in heaps with numbers that are never reused; `std::shared_ptr` and
`std::weak_ptr` are pointers by number. Contract of the smart pointers: an element is alive as long as it can be reached from a hierarchy
object or an iterator through shared pointers, and `lock` gives null for an element that is not alive (this is what reference counts do as
long as shared pointers form no cycle, see `C93_no_cycle`). `addFiner` (lines 359-378) is not modelled: it names a member that does not exist
(`finest_->element`) and cannot be instantiated. `originalFinest_` is not modelled, it only adds an owner to the first object.
-/

namespace Istl
namespace HList

/-- `Hierarchy::Element`. dune/istl/paamg/hierarchy.hh:54-70. -/
structure El where
  coarser : Option Nat := none
  finer : Option Nat := none
  obj : Option Nat := none
  red : Option Nat := none

/-- The members of a `Hierarchy`. dune/istl/paamg/hierarchy.hh:262-270. -/
structure Hier where
  finest : Option Nat
  coarsest : Option Nat
  levels : Nat

/-- The program state: list elements, stored objects, hierarchy objects and iterators by name. A name without object has been destroyed or
not been used yet; the iterator `some none` is past the end. -/
structure St (T : Type) where
  el : Nat → El
  nEl : Nat
  ob : Nat → T
  nOb : Nat
  hs : Nat → Option Hier
  nH : Nat
  its : Nat → Option (Option Nat)
  nI : Nat

variable {T : Type}

/-- Reachable through `finer_`, the shared pointer between elements. dune/istl/paamg/hierarchy.hh:63. -/
def Reach (el : Nat → El) (r e : Nat) : Prop := Relation.ReflTransGen (fun a b => (el a).finer = some b) r e

/-- Owned by somebody (contract of `std::shared_ptr`). dune/istl/paamg/hierarchy.hh:216, 264-266. -/
def Alive (s : St T) (e : Nat) : Prop :=
  (∃ h H r, s.hs h = some H ∧ (H.finest = some r ∨ H.coarsest = some r) ∧ Reach s.el r e) ∨
    ∃ i r, s.its i = some (some r) ∧ Reach s.el r e

open Classical in
/-- `std::weak_ptr::lock`. dune/istl/paamg/hierarchy.hh:178. -/
noncomputable def lock (s : St T) (w : Option Nat) : Option Nat :=
  match w with
  | none => none
  | some e => if Alive s e then some e else none

/-- A program before anything exists. -/
def init (dflt : T) : St T := ⟨fun _ => {}, 0, fun _ => dflt, 0, fun _ => none, 0, fun _ => none, 0⟩

/-- A new object, made by the caller or by `ConstructionTraits::construct` or `std::make_shared<MemberType>(...)`. -/
def newObj (v : T) (s : St T) : St T := { s with ob := upd s.ob s.nOb v, nOb := s.nOb + 1 }

/-- `std::allocate_shared<Element>`. -/
def newEl (e : El) (s : St T) : St T := { s with el := upd s.el s.nEl e, nEl := s.nEl + 1 }

/-- A new hierarchy object. -/
def newH (H : Hier) (s : St T) : St T := { s with hs := upd s.hs s.nH (some H), nH := s.nH + 1 }

/-- A new iterator. dune/istl/paamg/hierarchy.hh:130-132. -/
def newIt (e : Option Nat) (s : St T) : St T := { s with its := upd s.its s.nI (some e), nI := s.nI + 1 }

/-- Set an element's field. -/
def setEl (e : Nat) (f : El → El) (s : St T) : St T := { s with el := upd s.el e (f (s.el e)) }

/-- Set a hierarchy object. -/
def setH (h : Nat) (H : Option Hier) (s : St T) : St T := { s with hs := upd s.hs h H }

/-- Set an iterator. -/
def setIt (i : Nat) (e : Option (Option Nat)) (s : St T) : St T := { s with its := upd s.its i e }

/-- The object of that name, which must exist. -/
def getH (s : St T) (h : Nat) : Res Hier := match s.hs h with | some H => .ok H | none => .ub

/-- The element of an iterator that is dereferenced. -/
def getIt (s : St T) (i : Nat) : Res Nat := match s.its i with | some (some e) => .ok e | _ => .ub

/-- A pointer that is dereferenced. -/
def deref (p : Option Nat) : Res Nat := match p with | some x => .ok x | none => .ub

/-- `Hierarchy(first)`. dune/istl/paamg/hierarchy.hh:273-281. -/
def mkFirst (o : Nat) (s : St T) : St T := newH ⟨some s.nEl, some s.nEl, 1⟩ (newEl { obj := some o } s)

/-- `Hierarchy()`. dune/istl/paamg/hierarchy.hh:89-90. -/
def mkEmpty (s : St T) : St T := newH ⟨none, none, 0⟩ s

/-- One round of the copy loop: `current_` is filled from `otherCurrent_`. dune/istl/paamg/hierarchy.hh:303-312. -/
def copyEl (oc cur : Nat) (fin : Option Nat) (s : St T) : Res (St T) := do
  let x ← deref (s.el oc).obj
  let s := setEl cur (fun e => { e with obj := some s.nOb, finer := fin }) (newObj (s.ob x) s)
  match (s.el oc).red with
  | none => .ok s
  | some x => .ok (setEl cur (fun e => { e with red := some s.nOb }) (newObj (s.ob x) s))

/-- The loop: returns `current_` too. The number of rounds is bounded by `fuel`, which the caller chooses larger than the number of
elements. dune/istl/paamg/hierarchy.hh:300-321. -/
noncomputable def copyLoop (fuel : Nat) (other : Option Nat) (cur : Nat) (fin : Option Nat) (s : St T) : Res (St T × Nat) :=
  match fuel with
  | 0 => .ok (s, cur)
  | fuel + 1 =>
    match lock s other with
    | none => .ok (s, cur)
    | some oc => do
      let s ← copyEl oc cur fin s
      match lock s (s.el oc).coarser with
      | none => copyLoop fuel (s.el oc).coarser cur (some cur) s
      | some _ =>
        let c := s.nEl
        let s := setEl cur (fun e => { e with coarser := some c }) (newEl {} s)
        copyLoop fuel (s.el oc).coarser c (some cur) s

/-- The copy constructor. dune/istl/paamg/hierarchy.hh:285-323. -/
noncomputable def copy (h : Nat) (s : St T) : Res (St T) := do
  let H ← getH s h
  match H.finest with
  | none => .ok (newH ⟨none, none, H.levels⟩ s)
  | some f =>
    let first := s.nEl
    let r ← copyLoop (s.nEl + 1) (some f) first none (newEl {} s)
    .ok (newH ⟨some first, some r.2, H.levels⟩ r.1)

/-- The copy assignment the compiler generates: member by member. dune/istl/paamg/hierarchy.hh:256-271 (no `operator=` is declared). -/
def assign (h g : Nat) (s : St T) : Res (St T) := do
  let _ ← getH s h
  let G ← getH s g
  .ok (setH h (some G) s)

/-- The destructor. -/
def destroy (h : Nat) (s : St T) : Res (St T) := do
  let _ ← getH s h
  .ok (setH h none s)

/-- `addRedistributedOnCoarsest`. dune/istl/paamg/hierarchy.hh:331-335. -/
def addRedistributedOnCoarsest (h : Nat) (v : T) (s : St T) : Res (St T) := do
  let H ← getH s h
  let e ← deref H.coarsest
  .ok (setEl e (fun x => { x with red := some s.nOb }) (newObj v s))

/-- `addCoarser`; `v` is the constructed object, `none` stands for an exception from its construction: the state then is the one left
behind. dune/istl/paamg/hierarchy.hh:337-356. -/
def addCoarser (h : Nat) (v : Option T) (s : St T) : Res (St T) := do
  let H ← getH s h
  match H.coarsest with
  | none =>
    match v with
    | none => .ok s
    | some v => .ok (setH h (some ⟨some s.nEl, some s.nEl, H.levels + 1⟩) (newEl { obj := some s.nOb } (newObj v s)))
  | some old =>
    let s1 := setH h (some { H with coarsest := some s.nEl }) (newEl { finer := some old } s)
    match v with
    | none => .ok s1
    | some v =>
      let s2 := setEl s.nEl (fun x => { x with obj := some s.nOb }) (newObj v s1)
      .ok (setH h (some { H with coarsest := some s.nEl, levels := H.levels + 1 }) (setEl old (fun x => { x with coarser := some s.nEl }) s2))

/-- `levels()`. dune/istl/paamg/hierarchy.hh:325-329. -/
def levels (s : St T) (h : Nat) : Res Nat := do
  let H ← getH s h
  .ok H.levels

/-- `finest()`. dune/istl/paamg/hierarchy.hh:380-384, 392-396. -/
def itFinest (h : Nat) (s : St T) : Res (St T) := do
  let H ← getH s h
  .ok (newIt H.finest s)

/-- `coarsest()`. dune/istl/paamg/hierarchy.hh:386-390, 398-402. -/
def itCoarsest (h : Nat) (s : St T) : Res (St T) := do
  let H ← getH s h
  .ok (newIt H.coarsest s)

/-- A copy of an iterator. dune/istl/paamg/hierarchy.hh:135-140. -/
def itCopy (i : Nat) (s : St T) : Res (St T) :=
  match s.its i with
  | none => .ub
  | some e => .ok (newIt e s)

/-- `increment`. dune/istl/paamg/hierarchy.hh:176-179. -/
noncomputable def itInc (i : Nat) (s : St T) : Res (St T) := do
  let e ← getIt s i
  .ok (setIt i (some (lock s (s.el e).coarser)) s)

/-- `decrement`. dune/istl/paamg/hierarchy.hh:182-185. -/
def itDec (i : Nat) (s : St T) : Res (St T) := do
  let e ← getIt s i
  .ok (setIt i (some (s.el e).finer) s)

/-- The end of an iterator's life. -/
def itDestroy (i : Nat) (s : St T) : St T := setIt i none s

/-- `dereference`: the object. dune/istl/paamg/hierarchy.hh:170-173. -/
def itObj (s : St T) (i : Nat) : Res Nat := do
  let e ← getIt s i
  deref (s.el e).obj

/-- `isRedistributed`. dune/istl/paamg/hierarchy.hh:191-194. -/
def isRedistributed (s : St T) (i : Nat) : Res Bool := do
  let e ← getIt s i
  .ok (s.el e).red.isSome

/-- `getRedistributed`: the object. dune/istl/paamg/hierarchy.hh:200-204. -/
def getRedistributed (s : St T) (i : Nat) : Res Nat := do
  let e ← getIt s i
  deref (s.el e).red

/-- `addRedistributed(t)`. dune/istl/paamg/hierarchy.hh:205-208. -/
def itAddRedistributed (i o : Nat) (s : St T) : Res (St T) := do
  let e ← getIt s i
  .ok (setEl e (fun x => { x with red := some o }) s)

/-- `deleteRedistributed`. dune/istl/paamg/hierarchy.hh:210-213. -/
def itDeleteRedistributed (i : Nat) (s : St T) : Res (St T) := do
  let e ← getIt s i
  .ok (setEl e (fun x => { x with red := none }) s)

/-- Writing to an object (through whatever reference). -/
def write (o : Nat) (v : T) (s : St T) : St T := { s with ob := upd s.ob o v }

/-- The calls of a program. `obj` makes an object outside any hierarchy; `mk` and `itAdd` must be given objects that exist. -/
inductive Op (T : Type) where
  | obj (v : T)
  | mk (o : Nat)
  | empty
  | copy (h : Nat)
  | assign (h g : Nat)
  | destroy (h : Nat)
  | addRed (h : Nat) (v : T)
  | add (h : Nat) (v : Option T)
  | fin (h : Nat)
  | coa (h : Nat)
  | itCopy (i : Nat)
  | inc (i : Nat)
  | dec (i : Nat)
  | itDestroy (i : Nat)
  | itAdd (i o : Nat)
  | itDel (i : Nat)
  | write (o : Nat) (v : T)

/-- One call. -/
noncomputable def step (s : St T) : Op T → Res (St T)
  | .obj v => .ok (newObj v s)
  | .mk o => if o < s.nOb then .ok (mkFirst o s) else .ub
  | .empty => .ok (mkEmpty s)
  | .copy h => copy h s
  | .assign h g => assign h g s
  | .destroy h => destroy h s
  | .addRed h v => addRedistributedOnCoarsest h v s
  | .add h v => addCoarser h v s
  | .fin h => itFinest h s
  | .coa h => itCoarsest h s
  | .itCopy i => itCopy i s
  | .inc i => itInc i s
  | .dec i => itDec i s
  | .itDestroy i => .ok (itDestroy i s)
  | .itAdd i o => if o < s.nOb then itAddRedistributed i o s else .ub
  | .itDel i => itDeleteRedistributed i s
  | .write o v => if o < s.nOb then .ok (write o v s) else .ub

/-- A program. -/
noncomputable def run (s : St T) : List (Op T) → Res (St T)
  | [] => .ok s
  | o :: l => do
    let s ← step s o
    run s l

end HList
end Istl
