import Verif.Lemmas.PowerIt3

/-!
# What the eigenvalue algorithms do to the object, whatever their outcome
-/

namespace Istl

namespace Pow

variable {K X : Type} [Field K] {env : PEnv K X} {m : SpMat (PBlock K)} {b : Nat}

/-- A property of the object kept by counting and by shifting. -/
structure Kept (env : PEnv K X) (m : SpMat (PBlock K)) (b : Nat) (P : PObj K → Prop) : Prop where
  count : ∀ o n, P o → P { o with nIt := n }
  shift : ∀ o mu, P o → P (updateShiftMu env m b mu o).1

variable {P : PObj K → Prop}

theorem powLoop_obj (hP : Kept env m b P) {eps : K} {step : PState K X → PState K X × Res Unit}
    (hs : ∀ s, P s.obj → P (step s).1.obj) : ∀ (fuel : Nat) (s : PState K X), P s.obj →
      P (powLoop env eps step fuel s).1.obj := by
  intro fuel
  induction fuel with
  | zero =>
    intro s h
    rw [powLoop]
    split
    · exact hP.count _ _ h
    · exact h
  | succ fuel ih =>
    intro s h
    rw [powLoop]
    split
    · have h1 := hs _ (show P s.bump.obj from hP.count _ _ h)
      split
      · rename_i s' he; rw [he] at h1; exact ih _ h1
      · rename_i he; rw [he] at h1; exact h1
      · rename_i he; rw [he] at h1; exact h1
    · exact h

theorem andThen_obj {p : PState K X × Res Unit} {f : PState K X → PState K X × Res Unit} (h : P p.1.obj)
    (hf : ∀ s, P s.obj → P (f s).1.obj) : P (andThen p f).1.obj := by
  obtain ⟨s, r⟩ := p
  cases r <;> first | exact hf _ h | exact h

theorem solveWith_obj {sol : PObj K → X → X → Res X} {s : PState K X} (h : P s.obj) : P (solveWith sol s).1.obj := by
  unfold solveWith
  split <;> exact h

theorem tlimeSwitch_obj (g e d : K) (k : Nat) (q mo : K) (s : PState K X) :
    (tlimeSwitch env g e d k q mo s).obj = s.obj := by
  unfold tlimeSwitch
  dsimp only
  split_ifs <;> rfl

theorem power_obj (hP : Kept env m b P) (maxIt : Nat) (eps : K) {o : PObj K} (h : P o) (x : X) (lam : K) :
    P (applyPowerIteration env maxIt eps o x lam).1.obj :=
  powLoop_obj hP (fun s hs => hs) _ _ (hP.count _ _ h)

theorem inverse_obj (hP : Kept env m b P) (maxIt : Nat) (avoid : Bool) (g eps : K) (sol : PObj K → X → X → Res X)
    {o : PObj K} (h : P o) (x : X) (lam : K) :
    P (applyInverseIterationShift env m b maxIt avoid g eps sol o x lam).1.obj := by
  have h1 := hP.shift _ g h
  unfold applyInverseIterationShift
  split
  · rename_i o' he
    rw [he] at h1
    exact powLoop_obj hP (fun s hs => andThen_obj (solveWith_obj hs) (fun s hs => hs)) _ _ (hP.count _ _ h1)
  · rename_i o' e _ he
    rw [he] at h1
    exact h1

theorem rqi_obj (hP : Kept env m b P) (maxIt : Nat) (avoid : Bool) (eps : K) (sol : PObj K → X → X → Res X)
    {o : PObj K} (h : P o) (x : X) (lam : K) :
    P (applyRayleighQuotientIteration env m b maxIt avoid eps sol o x lam).1.obj :=
  powLoop_obj hP (fun s hs => andThen_obj (show P (withShift env m b s.lam s).1.obj from hP.shift _ _ hs)
    (fun s hs => andThen_obj (solveWith_obj hs) (fun s hs => hs))) _ _ (hP.count _ _ h)

theorem tlime_obj (hP : Kept env m b P) (maxIt : Nat) (avoid : Bool) (g eta eps d : K) (k : Nat)
    (sol : PObj K → X → X → Res X) {o : PObj K} (h : P o) (x : X) (lam : K) :
    P (applyTLIMEIteration env m b maxIt avoid g eta eps d k sol o x lam).1.obj :=
  powLoop_obj hP (fun s hs => andThen_obj (show P (withShift env m b _ s).1.obj from hP.shift _ _ hs)
    (fun s hs => andThen_obj (solveWith_obj hs) (fun s hs => by dsimp only; rw [tlimeSwitch_obj]; exact hs)))
    _ _ (hP.count _ _ h)

theorem kept_sync (heq : ∀ a b, env.eq a b = true ↔ a = b) : Kept env m b (fun o => InSync m b o ∧ Shiftable m o) where
  count := fun _ _ h => h
  shift := fun o mu h => by
    obtain ⟨o', h1, h2, _, _, h3⟩ := updateShiftMu_ok heq (b := b) mu h.2 h.1
    rw [h1]; exact ⟨h2, h3⟩

/-! ### The value the caller leaves in `lambda` -/

/-- Two states that differ at most in `lambda`. -/
theorem powLoop_first {eps : K} {step : PState K X → PState K X × Res Unit} {s t : PState K X} {fuel : Nat}
    (hg : env.gt s.r eps = true) (hr : t.r = s.r) (h : ∀ s', step s.bump = (s', .ok ()) → step t.bump = (s', .ok ()))
    (hok : (powLoop env eps step fuel s).2 = .ok ()) : powLoop env eps step fuel t = powLoop env eps step fuel s := by
  cases fuel with
  | zero => rw [powLoop, if_pos hg] at hok; cases hok
  | succ fuel =>
    rcases hp : step s.bump with ⟨s', r⟩
    rw [powLoop, if_pos hg, hp] at hok
    cases r with
    | ok u =>
      have e1 : powLoop env eps step (fuel + 1) t = powLoop env eps step fuel s' := by
        rw [powLoop, hr, if_pos hg, h _ hp]
      have e2 : powLoop env eps step (fuel + 1) s = powLoop env eps step fuel s' := by
        rw [powLoop, if_pos hg, hp]
      rw [e1, e2]
    | throw e => cases hok
    | ub => cases hok

end Pow

end Istl
