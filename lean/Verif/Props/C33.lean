import Verif.Model.SolverObj
import Verif.Spec.SolverDemo

/-!
# C33: the reduction given to one call does not outlive the call (unless the call throws)
-/

namespace Istl
namespace Solver

variable {Rl X : Type}

/-- The tolerance a call asks for: its own argument, or the configured one. -/
def Call.wanted (configured : Rl) : Call Rl X → Rl
  | .three _ _ => configured
  | .four _ _ red => red

/-- The arguments of a call. -/
def Call.x : Call Rl X → X
  | .three x _ => x
  | .four x _ _ => x

def Call.b : Call Rl X → X
  | .three _ b => b
  | .four _ b _ => b

/-- What the `k`-th, `k+1`-st, … call have to do: solve with the tolerance asked for. -/
def expected (run : Run Rl X) (s : Settings Rl) : Nat → List (Call Rl X) → List (Exit X Rl)
  | _, [] => []
  | k, a :: rest => run k { s with reduction := a.wanted s.reduction } a.x a.b :: expected run s (k + 1) rest

/-- The tolerance in force after a history in which calls may throw: that of the last throwing four argument call. -/
def inForce (run : Run Rl X) (s : Settings Rl) : Nat → Rl → List (Call Rl X) → Rl
  | _, red, [] => red
  | k, red, .three _ _ :: rest => inForce run s (k + 1) red rest
  | k, red, .four x b r :: rest =>
    inForce run s (k + 1) (if (run k { s with reduction := r } x b).exc = none then red else r) rest

/-- **Every history of calls that return**: each call is solved with exactly the tolerance it asked for (its own argument or the one the
solver was constructed with), and afterwards the settings are the initial ones. -/
theorem C33_history (run : Run Rl X) (s : Settings Rl) (cs : List (Call Rl X)) (k : Nat)
    (hret : ∀ e ∈ expected run s k cs, e.exc = none) :
    history (call run) k s cs = (expected run s k cs, s) := by
  induction cs generalizing k with
  | nil => rfl
  | cons a rest ih =>
    have h0 := hret _ (List.mem_cons_self ..)
    have h1 : call run k s a = (run k { s with reduction := a.wanted s.reduction } a.x a.b, s) := by
      cases a with
      | three x b => rfl
      | four x b red =>
        simp only [Call.wanted, Call.x, Call.b] at h0
        simp only [call, h0, Call.wanted, Call.x, Call.b]
    have h2 := ih (k + 1) fun e he => hret e (List.mem_cons_of_mem _ he)
    simp only [history, h1, h2, expected]

/-- **With exceptions**: only the tolerance can be left changed, and it is the one given to the last four argument call that threw. -/
theorem C33_history_throw (run : Run Rl X) (s : Settings Rl) (cs : List (Call Rl X)) (k : Nat) :
    (history (call run) k s cs).2 = { s with reduction := inForce run s k s.reduction cs } := by
  suffices h : ∀ red k, (history (call run) k { s with reduction := red } cs).2 = { s with reduction := inForce run s k red cs } from
    h s.reduction k
  induction cs with
  | nil => intro red k; rfl
  | cons a rest ih =>
    intro red k
    cases a with
    | three x b => exact ih red (k + 1)
    | four x b r =>
      cases h : (run k { s with reduction := r } x b).exc with
      | none =>
        have h1 : (call run k { s with reduction := red } (.four x b r)).2 = { s with reduction := red } := by
          simp only [call, h]
        simp only [history, h1, ih, inForce, h, if_true]
      | some e =>
        have h1 : (call run k { s with reduction := red } (.four x b r)).2 = { s with reduction := r } := by
          simp only [call, h]
        simp only [history, h1, ih, inForce, h, reduceCtorEq, if_false]

/-- **GMRes and flexible GMRes** solve every call with the configured tolerance (they ignore the argument), and no history, throwing or
not, changes their settings. -/
theorem C33_gmres (run : Run Rl X) (s : Settings Rl) (cs : List (Call Rl X)) (k : Nat) :
    (history (callGmres run) k s cs).2 = s ∧
    (history (callGmres run) k s cs).1 = cs.mapIdx fun j c => run (k + j) s c.x c.b := by
  induction cs generalizing k with
  | nil => exact ⟨rfl, rfl⟩
  | cons a rest ih =>
    have h1 : callGmres run k s a = (run k s a.x a.b, s) := by cases a <;> rfl
    obtain ⟨i1, i2⟩ := ih (k + 1)
    refine ⟨by simp only [history, h1, i1], ?_⟩
    simp only [history, h1, i2, List.mapIdx_cons, Nat.add_zero]
    congr 2
    funext j c
    rw [Nat.add_right_comm, Nat.add_assoc]

/-- Conjugate gradients on the example system as the numerical part. -/
def demoRun : Run ℚ (ℚ × ℚ) := fun _ s x b => cgApply demoEnv s.reduction s.maxit x b

/-- The settings of the examples. -/
def demoSettings : Settings ℚ := { reduction := 1 / 100, maxit := 10, verbose := 0, category := .sequential, sp := .seq }

/-- Non-vacuity of `C33_history`: a history of three calls that return, with different iteration numbers. -/
example : (∀ e ∈ expected demoRun demoSettings 0 [.four (0, 0) (1, 2) (9 / 10), .three (0, 0) (1, 2), .four (0, 0) (1, 1) (1 / 2)],
      e.exc = none) ∧
    (history (call demoRun) 0 demoSettings [.four (0, 0) (1, 2) (9 / 10), .three (0, 0) (1, 2), .four (0, 0) (1, 1) (1 / 2)]).1.map
      (fun e => e.it.i) = [1, 2, 1] := by
  refine ⟨?_, by decide +kernel⟩
  have h : (expected demoRun demoSettings 0 [.four (0, 0) (1, 2) (9 / 10), .three (0, 0) (1, 2), .four (0, 0) (1, 1) (1 / 2)]).map
      (fun e => e.exc) = [none, none, none] := by decide +kernel
  intro e he
  have : e.exc ∈ (expected demoRun demoSettings 0
      [.four (0, 0) (1, 2) (9 / 10), .three (0, 0) (1, 2), .four (0, 0) (1, 1) (1 / 2)]).map (fun e => e.exc) :=
    List.mem_map_of_mem he
  rw [h] at this
  simpa using this

/-- **Not exception safe**: after a four argument call with tolerance `9/10` that throws `SolverAbort`, a plain `apply(x,b,res)` of a
solver configured with `1/100` stops after one step, reported as converged; without the failed call it needs
two steps. -/
theorem C33_exception_counterexample :
    let failed : List (Call ℚ (ℚ × ℚ)) := [.four (0, 0) (2000, 2) (9 / 10), .three (0, 0) (1, 2)]
    (history (call demoRun) 0 demoSettings failed).1.map (fun e => (e.exc, e.it.i)) = [(some .solverAbort, 0), (none, 1)] ∧
    (history (call demoRun) 0 demoSettings failed).2.reduction = 9 / 10 ∧
    (history (call demoRun) 0 demoSettings [.three (0, 0) (1, 2)]).1.map (fun e => (e.exc, e.it.i)) = [(none, 2)] := by
  refine ⟨by decide +kernel, by decide +kernel, by decide +kernel⟩

end Solver
end Istl
