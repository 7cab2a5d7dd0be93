import Verif.Model.SolverObj

/-!
# C34: construction of an iterative solver checks the categories
-/

namespace Istl
namespace Solver

variable {Rl : Type}

/-- The constructor without scalar product accepts exactly sequential components; the solver is sequential then. -/
theorem C34_sequential (op prec : Category) (red : Rl) (maxit verbose : Nat) :
    ((∃ s, mkSeq op prec red maxit verbose = .ok s) ↔ op = .sequential ∧ prec = .sequential) ∧
    (∀ s, mkSeq op prec red maxit verbose = .ok s → s = ⟨red, maxit, verbose, .sequential, .seq⟩) ∧
    ((∀ s, mkSeq op prec red maxit verbose ≠ .ok s) → mkSeq op prec red maxit verbose = .throw .invalidSolverCategory) := by
  cases op <;> cases prec <;> simp [mkSeq, eq_comm]

/-- The general constructor succeeds exactly if the three categories coincide; the solver then reports this category, keeps the scalar
product and the parameters; otherwise `InvalidSolverCategory` is thrown. -/
theorem C34_general (op prec : Category) (sp : ScalarProductObj) (red : Rl) (maxit verbose : Nat) :
    ((∃ s, mkGeneral op sp prec red maxit verbose = .ok s) ↔ op = prec ∧ op = sp.category) ∧
    (∀ s, mkGeneral op sp prec red maxit verbose = .ok s → s = ⟨red, maxit, verbose, op, sp⟩) ∧
    ((∀ s, mkGeneral op sp prec red maxit verbose ≠ .ok s) → mkGeneral op sp prec red maxit verbose = .throw .invalidSolverCategory) := by
  unfold mkGeneral
  generalize hc : sp.category = c
  clear hc
  cases op <;> cases prec <;> cases c <;> simp [eq_comm]

/-- Construction from a `ParameterTree`: it succeeds exactly if all three keys are present and the categories agree. A missing key is
`RangeError`, whatever the categories are; without a scalar product the sequential one is used, so only sequential components pass. -/
theorem C34_config (op prec : Category) (sp : ScalarProductObj) (c : Config Rl) :
    (∀ red maxit verbose, c = ⟨some red, some maxit, some verbose⟩ →
      mkConfigSp op sp prec c = mkGeneral op sp prec red maxit verbose ∧
      ((∃ s, mkConfig op prec c = .ok s) ↔ op = .sequential ∧ prec = .sequential)) ∧
    (c.reduction = none ∨ c.maxit = none ∨ c.verbose = none →
      mkConfigSp op sp prec c = .throw .rangeError ∧ mkConfig op prec c = .throw .rangeError) := by
  obtain ⟨r, m, v⟩ := c
  constructor
  · rintro red maxit verbose h
    obtain ⟨rfl, rfl, rfl⟩ : r = some red ∧ m = some maxit ∧ v = some verbose := by simpa using h
    refine ⟨rfl, ?_⟩
    change (∃ s, mkGeneral op .seq prec red maxit verbose = .ok s) ↔ _
    rw [(C34_general op prec .seq red maxit verbose).1]
    constructor
    · rintro ⟨rfl, h⟩; exact ⟨h, h⟩
    · rintro ⟨rfl, rfl⟩; exact ⟨rfl, rfl⟩
  · intro h
    cases r <;> cases m <;> cases v <;> first | exact ⟨rfl, rfl⟩ | (simp at h)

/-- `createScalarProduct` for the category of the operator always passes the check, for every category; and it is the only category
that does. -/
theorem C34_scalar_product (op cat : Category) (red : Rl) (maxit verbose : Nat) :
    (makeScalarProduct cat).category = cat ∧
    ((∃ s, mkGeneral op (makeScalarProduct cat) op red maxit verbose = .ok s) ↔ cat = op) := by
  have h : (makeScalarProduct cat).category = cat := by cases cat <;> rfl
  refine ⟨h, ?_⟩
  rw [(C34_general op op _ red maxit verbose).1, h]
  simp [eq_comm]

/-- Both outcomes occur. -/
example : (∃ s, mkGeneral .overlapping (makeScalarProduct .overlapping) .overlapping (1 : Nat) 5 0 = .ok s) ∧
    mkGeneral .overlapping .seq .overlapping (1 : Nat) 5 0 = .throw .invalidSolverCategory ∧
    mkSeq .sequential .nonoverlapping (1 : Nat) 5 0 = .throw .invalidSolverCategory :=
  ⟨⟨_, rfl⟩, rfl, rfl⟩

end Solver
end Istl
