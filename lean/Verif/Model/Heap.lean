import Verif.Basic
import Mathlib.Data.List.Basic

/-!
# Explicit memory and stateful calls

The storage manipulated by `BCRSMatrix`, `VariableBlockVector`, ... : arrays obtained from an allocator, addressed by
(block, offset) pointers. Accesses outside a block, through a null pointer or into a freed block are undefined behaviour.
-/

namespace Istl

/-- Outcome of a member function call that changes the state `σ`: unlike `Res` it also records the state the object is left
in when an exception is thrown. -/
inductive Out (σ α : Type) where
  | ok (a : α) (s : σ)
  | throw (e : Exc) (s : σ)
  | ub

/-- The call returned normally. -/
def Out.isOk {σ α : Type} : Out σ α → Bool
  | .ok _ _ => true
  | _ => false

theorem Out.exists_of_isOk {σ : Type} {x : Out σ Unit} (h : x.isOk = true) : ∃ s, x = .ok () s := by
  cases x with
  | ok a s => exact ⟨s, rfl⟩
  | throw e s => cases h
  | ub => cases h

/-- A call acting on state `σ` and returning an `α`. -/
def Cmd (σ α : Type) : Type := σ → Out σ α

namespace Cmd
variable {σ α β : Type}

/-- Sequencing; an exception or undefined behaviour ends the computation. -/
def bind (x : Cmd σ α) (f : α → Cmd σ β) : Cmd σ β := fun s =>
  match x s with
  | .ok a s' => f a s'
  | .throw e s' => .throw e s'
  | .ub => .ub

/-- Normal return. -/
def ret (a : α) : Cmd σ α := fun s => .ok a s

instance : Monad (Cmd σ) where
  pure := ret
  bind := bind

/-- Throw an exception. -/
def raise (e : Exc) : Cmd σ α := fun s => .throw e s
/-- Undefined behaviour. -/
def undef : Cmd σ α := fun _ => .ub
/-- Read the state. -/
def get : Cmd σ σ := fun s => .ok s s
/-- Replace the state. -/
def set (s : σ) : Cmd σ Unit := fun _ => .ok () s
/-- Update the state. -/
def modify (f : σ → σ) : Cmd σ Unit := fun s => .ok () (f s)
/-- Run a computation that has no state. -/
def lift (r : Res α) : Cmd σ α := fun s =>
  match r with
  | .ok a => .ok a s
  | .throw e => .throw e s
  | .ub => .ub

theorem bind_def (x : Cmd σ α) (f : α → Cmd σ β) (s : σ) :
    (x >>= f) s = match x s with
      | .ok a s' => f a s'
      | .throw e s' => .throw e s'
      | .ub => .ub := rfl
@[simp] theorem pure_apply (a : α) (s : σ) : (pure a : Cmd σ α) s = .ok a s := rfl
@[simp] theorem raise_apply (e : Exc) (s : σ) : (raise e : Cmd σ α) s = .throw e s := rfl
@[simp] theorem undef_apply (s : σ) : (undef : Cmd σ α) s = .ub := rfl
@[simp] theorem get_apply (s : σ) : (get : Cmd σ σ) s = .ok s s := rfl
@[simp] theorem set_apply (s t : σ) : (set s : Cmd σ Unit) t = .ok () s := rfl
@[simp] theorem modify_apply (f : σ → σ) (s : σ) : (modify f : Cmd σ Unit) s = .ok () (f s) := rfl
@[simp] theorem lift_ok (a : α) (s : σ) : (lift (.ok a) : Cmd σ α) s = .ok a s := rfl
@[simp] theorem lift_throw (e : Exc) (s : σ) : (lift (.throw e) : Cmd σ α) s = .throw e s := rfl
@[simp] theorem lift_ub (s : σ) : (lift .ub : Cmd σ α) s = .ub := rfl

theorem bind_ok {x : Cmd σ α} {f : α → Cmd σ β} {s s' : σ} {a : α} (h : x s = .ok a s') : (x >>= f) s = f a s' := by
  rw [bind_def, h]
theorem bind_throw {x : Cmd σ α} {f : α → Cmd σ β} {s s' : σ} {e : Exc} (h : x s = .throw e s') :
    (x >>= f) s = .throw e s' := by
  rw [bind_def, h]
theorem bind_ub {x : Cmd σ α} {f : α → Cmd σ β} {s : σ} (h : x s = .ub) : (x >>= f) s = .ub := by
  rw [bind_def, h]

end Cmd

/-- A pointer: block number and offset in elements. `none : Option Ptr` is `nullptr`. -/
structure Ptr where
  blk : Nat
  off : Nat
  deriving DecidableEq, Repr

/-- Memory for elements of type `α`: `none` marks a freed block. -/
abbrev Mem (α : Type) := List (Option (List α))

namespace Mem
variable {α : Type}

/-- Read `k` consecutive elements starting at the pointer. Reading nothing is always fine. -/
def read (M : Mem α) (p : Option Ptr) (k : Nat) : Res (List α) :=
  if k = 0 then .ok []
  else
    match p with
    | none => .ub
    | some p =>
      match M[p.blk]? with
      | some (some l) => if p.off + k ≤ l.length then .ok ((l.drop p.off).take k) else .ub
      | _ => .ub

/-- Overwrite consecutive elements starting at the pointer. Writing nothing is always fine. -/
def write (M : Mem α) (p : Option Ptr) (xs : List α) : Res (Mem α) :=
  if xs = [] then .ok M
  else
    match p with
    | none => .ub
    | some p =>
      match M[p.blk]? with
      | some (some l) =>
        if p.off + xs.length ≤ l.length then
          .ok (M.set p.blk (some (l.take p.off ++ xs ++ l.drop (p.off + xs.length))))
        else .ub
      | _ => .ub

/-- A new block with the given contents; returns its number. -/
def alloc (M : Mem α) (l : List α) : Mem α × Nat := (M ++ [some l], M.length)

/-- `deallocate(p)`: a no-op on null, undefined on a block that is not live. -/
def free (M : Mem α) (p : Option Ptr) : Res (Mem α) :=
  match p with
  | none => .ok M
  | some p =>
    match M[p.blk]? with
    | some (some _) => .ok (M.set p.blk none)
    | _ => .ub

end Mem

end Istl
