import Verif.Model.BlockVec

/-!
# What the users of `BlockVector` and `BlockVectorWindow` rely on

A vector is a value: a list of blocks, its own. Every call has the effect on these values that its name says, no call
changes the value of an object it does not name. A window is a view of a part of a vector.
-/

namespace Istl.BVec
variable {B : Type}

/-- The values of all vectors: by name, the list of blocks, or `none` where there is no object. -/
abbrev Vals (B : Type) := Nat → Option (List B)

/-- The object `x` looks like the list `l`: `size()` is its length and `x[i]` delivers its entries. -/
def Shows (w : World B) (x : Nat) (l : List B) : Prop :=
  size w x = some l.length ∧ ∀ i (h : i < l.length), get w x i = .ok l[i]

/-- All objects together look like the values `vals`. -/
def Sees (w : World B) (vals : Vals B) : Prop :=
  ∀ x, match vals x with
    | none => size w x = none
    | some l => Shows w x l

/-- The calls on vectors. -/
inductive Call (B : Type) where
  | ctor (x : Nat)
  | ctorSize (x n : Nat)
  | ctorList (x : Nat) (l : List B)
  | ctorCap (x n c : Nat)
  | ctorCopy (x y : Nat)
  | ctorMove (x y : Nat)
  | reserve (x c : Nat)
  | resize (x n : Nat)
  | assign (x y : Nat)
  | assignMove (x y : Nat)
  | swap (x y : Nat)
  | dtor (x : Nat)
  | put (x i : Nat) (b : B)
  | fill (x : Nat) (b : B)

/-- The calls on windows. `on k x off len`: the window `k` is put on `len` blocks of the vector `x` from `off`. -/
inductive WCall (B : Type) where
  | on (k x off len : Nat)
  | copy (k g : Nat)
  | setsize (k n : Nat)
  | setptr (k x off : Nat)
  | assign (k g : Nat)
  | fill (k : Nat) (b : B)
  | put (k i : Nat) (b : B)
  | vector (x k : Nat)

/-- The member of the model a call stands for. -/
def Call.run (vini : B) (lk lk' : Luck) : Call B → Cmd (World B) Unit
  | .ctor x => BVec.ctor x
  | .ctorSize x n => BVec.ctorSize vini lk x n
  | .ctorList x l => BVec.ctorList lk x l
  | .ctorCap x n c => BVec.ctorCap vini lk lk' x n c
  | .ctorCopy x y => BVec.ctorCopy lk x y
  | .ctorMove x y => BVec.ctorMove x y
  | .reserve x c => BVec.reserve lk x c
  | .resize x n => BVec.resize vini lk x n
  | .assign x y => BVec.assign lk x y
  | .assignMove x y => BVec.assignMove x y
  | .swap x y => BVec.swap x y
  | .dtor x => BVec.dtor x
  | .put x i b => BVec.put x i b
  | .fill x b => BVec.fill x b

/-- The member of the model a call stands for. -/
def WCall.run (vini : B) (lk : Luck) : WCall B → Cmd (World B) Unit
  | .on k x off len => winAt k x off len
  | .copy k g => winCopy k g
  | .setsize k n => winSetsize k n
  | .setptr k x off => winSetptr k x off
  | .assign k g => winAssign k g
  | .fill k b => winFill k b
  | .put k i b => winPut k i b
  | .vector x k => winVector vini lk x k

/-- The calls a program may make: new objects get names without an object, other calls name objects that exist, indices
are below the size. -/
def Call.Legal (vals : Vals B) : Call B → Prop
  | .ctor x => vals x = none
  | .ctorSize x _ => vals x = none
  | .ctorList x _ => vals x = none
  | .ctorCap x _ _ => vals x = none
  | .ctorCopy x y => vals x = none ∧ vals y ≠ none
  | .ctorMove x y => vals x = none ∧ vals y ≠ none
  | .reserve x _ => vals x ≠ none
  | .resize x _ => vals x ≠ none
  | .assign x y => vals x ≠ none ∧ vals y ≠ none
  | .assignMove x y => vals x ≠ none ∧ vals y ≠ none
  | .swap x y => vals x ≠ none ∧ vals y ≠ none
  | .dtor x => vals x ≠ none
  | .put x i _ => ∃ l, vals x = some l ∧ i < l.length
  | .fill x _ => vals x ≠ none

/-- The list `l` cut or extended by value-initialised blocks to the length `n`. -/
def resized (vini : B) (n : Nat) (l : List B) : List B := l.take n ++ List.replicate (n - l.length) vini

/-- The values after a call that returned. -/
def Call.after (vini : B) (vals : Vals B) : Call B → Vals B
  | .ctor x => Function.update vals x (some [])
  | .ctorSize x n => Function.update vals x (some (List.replicate n vini))
  | .ctorList x l => Function.update vals x (some l)
  | .ctorCap x n _ => Function.update vals x (some (List.replicate n vini))
  | .ctorCopy x y => Function.update vals x (vals y)
  | .ctorMove x y => Function.update (Function.update vals x (vals y)) y (some [])
  | .reserve _ _ => vals
  | .resize x n => Function.update vals x ((vals x).map (resized vini n))
  | .assign x y => Function.update vals x (vals y)
  | .assignMove x y => Function.update (Function.update vals x (vals y)) y (vals x)
  | .swap x y => Function.update (Function.update vals x (vals y)) y (vals x)
  | .dtor x => Function.update vals x none
  | .put x i b => Function.update vals x ((vals x).map fun l => l.set i b)
  | .fill x b => Function.update vals x ((vals x).map fun l => List.replicate l.length b)

/-- The values after a call that threw: as before, except that an assignment may have overwritten some leading blocks of its
target. -/
def Call.Failed (vals vals' : Vals B) : Call B → Prop
  | .assign x y => ∃ lx ly j, vals x = some lx ∧ vals y = some ly ∧
      vals' = Function.update vals x (some (ly.take j ++ lx.drop j)) ∧ j ≤ lx.length ∧ j ≤ ly.length
  | _ => vals' = vals

/-- The calls that never throw. -/
def Call.Safe : Call B → Prop
  | .ctor _ | .ctorMove _ _ | .assignMove _ _ | .swap _ _ | .dtor _ | .put _ _ _ | .fill _ _ => True
  | _ => False

/-- A program in which nothing exists. -/
def World.init : World B := ⟨[], fun _ => none, fun _ => none⟩

/-- The states a program can reach by calls on vectors and windows that return or throw. -/
inductive Reach (vini : B) : World B → Prop
  | init : Reach vini World.init
  | ok {w w' lk lk'} (c : Call B) : Reach vini w → c.run vini lk lk' w = .ok () w' → Reach vini w'
  | threw {w w' lk lk' e} (c : Call B) : Reach vini w → c.run vini lk lk' w = .throw e w' → Reach vini w'
  | wok {w w' lk} (c : WCall B) : Reach vini w → c.run vini lk w = .ok () w' → Reach vini w'
  | wthrew {w w' lk e} (c : WCall B) : Reach vini w → c.run vini lk w = .throw e w' → Reach vini w'

/-- The window `k` is a view of the blocks `[off, off+len)` of the vector `x`: pointer `x.data()+off`, size `len`. -/
def Aims (w : World B) (k x off len : Nat) : Prop :=
  ∃ v, w.vec x = some v ∧ w.win k = some ⟨shift v.p off, len⟩ ∧ off + len ≤ v.n

/-- The vector that has, after the call, the storage `x` had before. -/
def Call.heir (x : Nat) : Call B → Nat
  | .ctorMove a b => if x = b then a else x
  | .assignMove a b => if x = a then b else if x = b then a else x
  | .swap a b => if x = a then b else if x = b then a else x
  | _ => x

/-- The call keeps the first `e` blocks of the vector `x`, whose capacity is `cap`, in place. -/
def Call.Keeps (vals : Vals B) (x cap e : Nat) : Call B → Prop
  | .reserve y n => y = x → n ≤ cap
  | .resize y n => y = x → n ≤ cap ∧ e ≤ n
  | .assign y z => y = x → z ≠ x → ∃ l, vals z = some l ∧ l.length ≤ cap ∧ e ≤ l.length
  | .dtor y => y ≠ x
  | _ => True

end Istl.BVec
