import Verif.Spec.Solver
import Mathlib.Data.List.Basic
import Mathlib.Data.List.Range
import Mathlib.Tactic.Common

/-! # The iteration record and the common loop of the iterative solvers -/

namespace Istl
namespace Solver

variable {K Rl X : Type}

/-- State of the record between two steps. -/
structure Good [Mul Rl] (E : Env K Rl X) (red : Rl) (it : It Rl) : Prop where
  numbers : it.trace.map Prod.fst = List.range (it.i + 1)
  first : it.trace.head? = some (0, it.def0)
  last : it.trace.getLast? = some (it.i, it.cur)
  finite : ∀ t ∈ it.trace, E.finite t.2 = true
  conv : it.converged = small E red it.def0 it.cur

theorem small_iff [Mul Rl] (E : Env K Rl X) (red d0 d : Rl) : small E red d0 d = true ↔ Reached E red d0 d := by
  simp [small, Reached]

theorem step_eq [Mul Rl] {E : Env K Rl X} {red : Rl} {it it' : It Rl} {i : Nat} {d : Rl} (h : it.step E red i d = some it') :
    E.finite d = true ∧ it' = ⟨if i = 0 then d else it.def0, d, i, small E red (if i = 0 then d else it.def0) d,
      it.trace ++ [(i, d)]⟩ := by
  unfold It.step at h
  split at h
  · rename_i hf
    exact ⟨hf, (Option.some.inj h).symm⟩
  · cases h

theorem step_none [Mul Rl] {E : Env K Rl X} {red : Rl} {it : It Rl} {i : Nat} {d : Rl} (h : it.step E red i d = none) :
    E.finite d = false := by
  unfold It.step at h
  cases hf : E.finite d with
  | false => rfl
  | true => rw [hf] at h; cases h

theorem good_start [Mul Rl] [Zero Rl] {E : Env K Rl X} {red d : Rl} {it : It Rl} (h : It.start.step E red 0 d = some it) :
    Good E red it ∧ it.i = 0 ∧ it.def0 = d ∧ it.cur = d := by
  obtain ⟨hf, rfl⟩ := step_eq h
  refine ⟨⟨?_, ?_, ?_, ?_, ?_⟩, rfl, ?_, rfl⟩ <;> simp [It.start, hf]

theorem good_step [Mul Rl] {E : Env K Rl X} {red d : Rl} {it it' : It Rl} (g : Good E red it)
    (h : it.step E red (it.i + 1) d = some it') :
    Good E red it' ∧ it'.i = it.i + 1 ∧ it'.def0 = it.def0 ∧ it'.cur = d := by
  obtain ⟨hf, rfl⟩ := step_eq h
  refine ⟨⟨?_, ?_, ?_, ?_, ?_⟩, rfl, ?_, rfl⟩
  · simp [g.numbers, List.range_succ]
  · have := g.first
    cases ht : it.trace with
    | nil => rw [ht] at this; cases this
    | cons a l => rw [ht] at this; simpa using this
  · simp
  · intro t ht
    rcases List.mem_append.1 ht with ht | ht
    · exact g.finite t ht
    · rw [List.mem_singleton.1 ht]; exact hf
  · simp
  · simp

theorem Good.truthful [Mul Rl] [Div Rl] {E : Env K Rl X} {red : Rl} {e : Exit X Rl} (g : Good E red e.it) :
    Truthful E red e e.it.def0 e.it.cur where
  numbers := g.numbers
  first := g.first
  last := g.last
  finite := g.finite
  converged := small_iff E red _ _
  reduction := rfl

/-- Invariants of the common loop. -/
theorem forIt_spec [Mul Rl] {σ : Type} {E : Env K Rl X} {red : Rl} {advance : Nat → σ → σ} {defect : σ → Rl} {after : Nat → σ → σ}
    (I : σ → It Rl → Prop)
    (hadv : ∀ s it it', I s it → it.converged = false → it.step E red (it.i + 1) (defect (advance (it.i + 1) s)) = some it' →
      I (advance (it.i + 1) s) it')
    (haft : ∀ i s it, I s it → it.converged = false → I (after i s) it) :
    ∀ n s it, I s it → Good E red it → it.converged = false →
      Good E red (forIt E red advance defect after n (it.i + 1) s it).2.1 ∧
      (forIt E red advance defect after n (it.i + 1) s it).2.1.def0 = it.def0 ∧
      (forIt E red advance defect after n (it.i + 1) s it).2.1.i ≤ it.i + n ∧
      ((forIt E red advance defect after n (it.i + 1) s it).2.2 = none →
        I (forIt E red advance defect after n (it.i + 1) s it).1 (forIt E red advance defect after n (it.i + 1) s it).2.1 ∧
        ((forIt E red advance defect after n (it.i + 1) s it).2.1.converged = false →
          (forIt E red advance defect after n (it.i + 1) s it).2.1.i = it.i + n)) ∧
      ((forIt E red advance defect after n (it.i + 1) s it).2.2 ≠ none →
        (forIt E red advance defect after n (it.i + 1) s it).2.2 = some .solverAbort ∧
        (forIt E red advance defect after n (it.i + 1) s it).2.1.converged = false ∧
        (forIt E red advance defect after n (it.i + 1) s it).2.1.i < it.i + n ∧
        ∃ s0, I s0 (forIt E red advance defect after n (it.i + 1) s it).2.1 ∧
          (forIt E red advance defect after n (it.i + 1) s it).1 =
            advance ((forIt E red advance defect after n (it.i + 1) s it).2.1.i + 1) s0 ∧
          E.finite (defect (forIt E red advance defect after n (it.i + 1) s it).1) = false) := by
  intro n
  induction n with
  | zero => intro s it hI g hc; simp [forIt, hI, g]
  | succ n ih =>
    intro s it hI g hc
    simp only [forIt]
    cases hs : it.step E red (it.i + 1) (defect (advance (it.i + 1) s)) with
    | none =>
      dsimp only
      exact ⟨g, rfl, by omega, fun h => (by cases h), fun _ => ⟨rfl, hc, by omega, s, hI, rfl, step_none hs⟩⟩
    | some it' =>
      obtain ⟨g', hi, hd, hcur⟩ := good_step g hs
      have hI' := hadv s it it' hI hc hs
      dsimp only
      by_cases hc' : it'.converged = true
      · simp only [hc', if_true]
        exact ⟨g', hd, by omega, fun _ => ⟨hI', fun h => by simp at h⟩, fun h => absurd rfl h⟩
      · have hc'' : it'.converged = false := by simpa using hc'
        simp only [hc'', Bool.false_eq_true, if_false]
        have := ih (after (it.i + 1) (advance (it.i + 1) s)) it' (haft _ _ _ hI' hc'') g' hc''
        rw [hi] at this
        obtain ⟨h1, h2, h3, h4, h5⟩ := this
        refine ⟨h1, h2.trans hd, by omega, fun h => ?_, fun h => ?_⟩
        · obtain ⟨a, b⟩ := h4 h
          exact ⟨a, fun hh => by have := b hh; omega⟩
        · obtain ⟨a, b, c, d⟩ := h5 h
          exact ⟨a, b, by omega, d⟩

/-- What a solver run yields, for an invariant `I x b d` of solution, right hand side and defect; `strict`: the run stops at the first
converged step. -/
structure RunSpec [Mul Rl] [Zero Rl] (E : Env K Rl X) (red : Rl) (maxit : Nat) (strict : Prop) (I : X → X → Rl → Prop) (d0 : Rl)
    (e : Exit X Rl) : Prop where
  bound : e.it.i ≤ maxit
  ok : e.exc = none → Good E red e.it ∧ e.it.def0 = d0 ∧ (∃ x', e.x = E.post x' ∧ I x' e.b e.it.cur) ∧
    (e.it.converged = false → e.it.i = maxit)
  bad : e.exc ≠ none → e.exc = some .solverAbort ∧
    ((E.finite d0 = false ∧ e.it = It.start) ∨
      (Good E red e.it ∧ e.it.def0 = d0 ∧ (strict → e.it.converged = false) ∧ e.it.i < maxit))
  inv : e.exc ≠ none → ∃ d, I e.x e.b d

/-- Invariants of the common frame. -/
theorem frame_spec [Mul Rl] [Zero Rl] {σ : Type} {E : Env K Rl X} {red : Rl} {maxit : Nat} {meas : X → Rl} {advance : Nat → σ → σ}
    {defect : σ → Rl} {after : Nat → σ → σ} {init : X → X → Rl → σ} {getx getb : σ → X} {x b : X} (I : X → X → Rl → Prop)
    (J : σ → Rl → Prop)
    (h0 : I (E.pre x b).1 (defect0 E x b) (meas (defect0 E x b)))
    (hinit : J (init (E.pre x b).1 (defect0 E x b) (meas (defect0 E x b))) (meas (defect0 E x b)))
    (hadv : ∀ i s d, J s d → J (advance i s) (defect (advance i s)))
    (haft : ∀ i s d, J s d → J (after i s) d)
    (hJ : ∀ s d, J s d → I (getx s) (getb s) d) :
    RunSpec E red maxit True I (meas (defect0 E x b)) (frame E red maxit meas advance defect after init getx getb x b) := by
  unfold frame
  dsimp only
  change RunSpec E red maxit True I (meas (defect0 E x b)) (match It.start.step E red 0 (meas (defect0 E x b)) with
    | none => _
    | some it => _)
  cases hs : It.start.step E red 0 (meas (defect0 E x b)) with
  | none =>
    dsimp only
    exact ⟨Nat.zero_le _, fun h => (by cases h), fun _ => ⟨rfl, Or.inl ⟨step_none hs, rfl⟩⟩, fun _ => ⟨_, h0⟩⟩
  | some it =>
    obtain ⟨g, hi, hd, hcur⟩ := good_start hs
    dsimp only
    by_cases hc : it.converged = true
    · simp only [hc, if_true]
      refine ⟨by dsimp only; omega, fun _ => ⟨g, hd, ⟨_, rfl, ?_⟩, fun h => by dsimp only at h; rw [hc] at h; cases h⟩,
        fun h => absurd rfl h, fun h => absurd rfl h⟩
      simp only [hcur]
      exact h0
    · have hc' : it.converged = false := by simpa using hc
      simp only [hc', Bool.false_eq_true, if_false]
      have := forIt_spec (E := E) (red := red) (advance := advance) (defect := defect) (after := after)
        (fun s it => J s it.cur)
        (fun s it it' hI _ hst => by rw [(step_eq hst).2]; exact hadv _ s _ hI)
        (fun i s it hI _ => haft i s _ hI) maxit (init (E.pre x b).1 (defect0 E x b) (meas (defect0 E x b))) it
        (by rw [hcur]; exact hinit) g hc'
      rw [hi] at this
      simp only [Nat.zero_add] at this
      obtain ⟨h1, h2, h3, h4, h5⟩ := this
      change RunSpec E red maxit True I (meas (defect0 E x b))
        (match (forIt E red advance defect after maxit 1 (init (E.pre x b).1 (defect0 E x b) (meas (defect0 E x b))) it).2.2 with
         | some e => _
         | none => _)
      cases hr : (forIt E red advance defect after maxit 1 (init (E.pre x b).1 (defect0 E x b) (meas (defect0 E x b))) it).2.2 with
      | some e =>
        dsimp only
        rw [hr] at h5
        obtain ⟨a, b', c, s0, hs0, hs1, _⟩ := h5 (by simp)
        exact ⟨h3, fun h => (by cases h), fun _ => ⟨a, Or.inr ⟨h1, h2.trans hd, fun _ => b', c⟩⟩,
          fun _ => ⟨_, hJ _ _ (hs1.symm ▸ hadv _ _ _ hs0)⟩⟩
      | none =>
        dsimp only
        obtain ⟨a, b'⟩ := h4 hr
        exact ⟨h3, fun _ => ⟨h1, h2.trans hd, ⟨_, rfl, hJ _ _ a⟩, b'⟩, fun h => absurd rfl h, fun h => absurd rfl h⟩

/-! ## BiCGSTAB -/

section Bi
variable [Add X] [SMul K X] [Mul Rl] [Zero Rl] [Zero K] [Neg K] [Div K] [One K] [Mul K]

theorem biLoop_spec {E : Env K Rl X} {red : Rl} (J : BiSt K X Rl → Rl → Prop)
    (h1 : ∀ k s d s' rho, J s d → biFirst E k s = some (s', rho) → J s' s'.norm)
    (h2 : ∀ k s d rho, J s d → J (biSecond E k s rho) (biSecond E k s rho).norm) :
    ∀ n k s it, J s it.cur → Good E red it → it.converged = false → it.i = 2 * k →
      Good E red (biLoop E red n k s it).2.1 ∧ (biLoop E red n k s it).2.1.def0 = it.def0 ∧
      (biLoop E red n k s it).2.1.i ≤ 2 * (k + n) ∧
      ((biLoop E red n k s it).2.2 = none → J (biLoop E red n k s it).1 (biLoop E red n k s it).2.1.cur ∧
        ((biLoop E red n k s it).2.1.converged = false → (biLoop E red n k s it).2.1.i = 2 * (k + n))) ∧
      ((biLoop E red n k s it).2.2 ≠ none → (biLoop E red n k s it).2.2 = some .solverAbort ∧
        (biLoop E red n k s it).2.1.converged = false ∧ (biLoop E red n k s it).2.1.i < 2 * (k + n) ∧
        ∃ d, J (biLoop E red n k s it).1 d) := by
  intro n
  induction n with
  | zero => intro k s it hJ g hc hi; simp [biLoop, hJ, g, hi]
  | succ n ih =>
    intro k s it hJ g hc hi
    simp only [biLoop]
    cases hf : biFirst E k s with
    | none => exact ⟨g, rfl, by dsimp only; omega, fun h => (by cases h), fun _ => ⟨rfl, hc, by dsimp only; omega, _, hJ⟩⟩
    | some sr =>
      obtain ⟨s', rho⟩ := sr
      have hJ' := h1 k s _ s' rho hJ hf
      dsimp only
      rw [← hi]
      cases hs : it.step E red (it.i + 1) s'.norm with
      | none => exact ⟨g, rfl, by dsimp only; omega, fun h => (by cases h), fun _ => ⟨rfl, hc, by dsimp only; omega, _, hJ'⟩⟩
      | some it1 =>
        obtain ⟨g1, hi1, hd1, hc1⟩ := good_step g hs
        dsimp only
        by_cases hcv : it1.converged = true
        · simp only [hcv, if_true]
          refine ⟨g1, hd1, by omega, fun _ => ⟨by rw [hc1]; exact hJ', fun h => ?_⟩, fun h => absurd rfl h⟩
          cases h
        · have hcv' : it1.converged = false := by simpa using hcv
          simp only [hcv', Bool.false_eq_true, if_false]
          have hJ2 := h2 k s' _ rho hJ'
          have e2 : it.i + 2 = it1.i + 1 := by omega
          rw [e2]
          cases hs2 : it1.step E red (it1.i + 1) (biSecond E k s' rho).norm with
          | none =>
            exact ⟨g1, hd1, by dsimp only; omega, fun h => (by cases h), fun _ => ⟨rfl, hcv', by dsimp only; omega, _, hJ2⟩⟩
          | some it2 =>
            obtain ⟨g2, hi2, hd2, hc2⟩ := good_step g1 hs2
            dsimp only
            by_cases hcv2 : it2.converged = true
            · simp only [hcv2, if_true]
              refine ⟨g2, hd2.trans hd1, by omega,
                fun _ => ⟨by rw [hc2]; exact hJ2, fun h => ?_⟩, fun h => absurd rfl h⟩
              cases h
            · have hcv2' : it2.converged = false := by simpa using hcv2
              simp only [hcv2', Bool.false_eq_true, if_false]
              have := ih (k + 1) (biSecond E k s' rho) it2 (by rw [hc2]; exact hJ2) g2 hcv2' (by omega)
              obtain ⟨a, b, c, d, e⟩ := this
              have hk : 2 * (k + 1 + n) = 2 * (k + (n + 1)) := by omega
              rw [hk] at c d e
              exact ⟨a, b.trans (hd2.trans hd1), c, d, e⟩

theorem bi_spec [Zero X] {E : Env K Rl X} {red : Rl} {maxit : Nat} {x b : X} (I : X → X → Rl → Prop) (J : BiSt K X Rl → Rl → Prop)
    (h0 : I (E.pre x b).1 (defect0 E x b) (E.norm (defect0 E x b)))
    (hinit : J { x := (E.pre x b).1, r := defect0 E x b, p := 0, v := 0, rt := defect0 E x b, rho := 1, alpha := 1, omega := 1,
                 norm := E.norm (defect0 E x b) } (E.norm (defect0 E x b)))
    (h1 : ∀ k s d s' rho, J s d → biFirst E k s = some (s', rho) → J s' s'.norm)
    (h2 : ∀ k s d rho, J s d → J (biSecond E k s rho) (biSecond E k s rho).norm)
    (hJ : ∀ s d, J s d → I s.x s.r d) :
    RunSpec E red (2 * maxit) True I (E.norm (defect0 E x b)) (biApply E red maxit x b) := by
  unfold biApply
  dsimp only
  rw [show E.subOp (E.pre x b).1 (E.pre x b).2 = defect0 E x b from rfl]
  cases hs : It.start.step E red 0 (E.norm (defect0 E x b)) with
  | none =>
    dsimp only
    exact ⟨Nat.zero_le _, fun h => (by cases h), fun _ => ⟨rfl, Or.inl ⟨step_none hs, rfl⟩⟩, fun _ => ⟨_, h0⟩⟩
  | some it =>
    obtain ⟨g, hi, hd, hcur⟩ := good_start hs
    dsimp only
    by_cases hc : it.converged = true
    · simp only [hc, if_true]
      refine ⟨by dsimp only; omega, fun _ => ⟨g, hd, ⟨_, rfl, ?_⟩, fun h => by dsimp only at h; rw [hc] at h; cases h⟩,
        fun h => absurd rfl h, fun h => absurd rfl h⟩
      simp only [hcur]
      exact h0
    · have hc' : it.converged = false := by simpa using hc
      simp only [hc', Bool.false_eq_true, if_false]
      obtain ⟨a1, a2, a3, a4, a5⟩ := biLoop_spec J h1 h2 maxit 0 _ it (by rw [hcur]; exact hinit) g hc' (by omega)
      rw [Nat.zero_add] at a3 a4 a5
      generalize hR : biLoop E red maxit 0 _ it = R at a1 a2 a3 a4 a5
      obtain ⟨s', it', ex⟩ := R
      cases ex with
      | some e =>
        obtain ⟨p1, p2, p3, d', p4⟩ := a5 (by simp)
        exact ⟨a3, fun h => (by cases h), fun _ => ⟨p1, Or.inr ⟨a1, a2.trans hd, fun _ => p2, p3⟩⟩, fun _ => ⟨d', hJ _ _ p4⟩⟩
      | none =>
        obtain ⟨p1, p2⟩ := a4 rfl
        exact ⟨a3, fun _ => ⟨a1, a2.trans hd, ⟨_, rfl, hJ _ _ p1⟩, p2⟩, fun h => absurd rfl h, fun h => absurd rfl h⟩

end Bi

/-! ## GMRes -/

section Gm
variable [Add X] [SMul K X] [Zero X] [Zero K] [One K] [Neg K] [Add K] [Sub K] [Mul K] [Div K] [DecidableEq K]
  [Zero Rl] [One Rl] [Add Rl] [Mul Rl] [Div Rl]

/-- Invariants of the inner GMRes loop. -/
theorem gmInner_spec {E : Env K Rl X} {red : Rl} {maxit : Nat} {stp : Nat → GmSt K X Rl → Option (GmSt K X Rl)}
    (I : Nat → GmSt K X Rl → Rl → Prop) (hstp : ∀ i st d st', I i st d → (∃ d0, small E red d0 d = false) → stp i st = some st' → I (i + 1) st' st'.norm) :
    ∀ n i st it, I i st it.cur → Good E red it → ∀ r, gmInner E red maxit stp n i (it.i + 1) st it = r →
      Good E red r.2.1 ∧ r.2.1.def0 = it.def0 ∧ r.2.2.2.1 = r.2.1.i + 1 ∧ i ≤ r.2.2.1 ∧ r.2.2.1 ≤ i + n ∧
      r.2.1.i + i = it.i + r.2.2.1 ∧ (it.i ≤ maxit → r.2.1.i ≤ maxit) ∧
      (r.2.2.2.2 = none → I r.2.2.1 r.1 r.2.1.cur ∧ (r.2.2.1 = i + n ∨ maxit < r.2.2.2.1 ∨ r.2.1.converged = true)) ∧
      (r.2.2.2.2 ≠ none → r.2.2.2.2 = some .solverAbort ∧ r.2.1.converged = false ∧ r.2.1.i < maxit) := by
  intro n
  induction n with
  | zero =>
    rintro i st it hI g r rfl
    exact ⟨g, rfl, rfl, le_refl _, le_refl _, rfl, id, fun _ => ⟨hI, Or.inl rfl⟩, fun h => absurd rfl h⟩
  | succ n ih =>
    rintro i st it hI g r rfl
    by_cases hc : it.i + 1 ≤ maxit ∧ it.converged = false
    · simp only [gmInner, if_pos hc]
      cases hst : stp i st with
      | none =>
        exact ⟨g, rfl, rfl, le_refl _, by dsimp only; omega, rfl, id, fun h => (by cases h),
          fun _ => ⟨rfl, hc.2, by dsimp only; omega⟩⟩
      | some st' =>
        dsimp only
        cases hs : it.step E red (it.i + 1) st'.norm with
        | none =>
          exact ⟨g, rfl, rfl, le_refl _, by dsimp only; omega, rfl, id, fun h => (by cases h),
            fun _ => ⟨rfl, hc.2, by dsimp only; omega⟩⟩
        | some it' =>
          dsimp only
          obtain ⟨g', hi, hd, hcur⟩ := good_step g hs
          have := ih (i + 1) st' it' (by rw [hcur]; exact hstp i st _ st' hI ⟨it.def0, by rw [← g.conv]; exact hc.2⟩ hst) g' _ rfl
          rw [hi] at this
          obtain ⟨a1, a2, a3, a4, a5, a6, a7, a8, a9⟩ := this
          refine ⟨a1, a2.trans hd, a3, by omega, by omega, by omega, fun h => a7 (by omega), fun h => ?_, a9⟩
          obtain ⟨b1, b2⟩ := a8 h
          refine ⟨b1, b2.imp (fun h => ?_) id⟩
          omega
    · have e : gmInner E red maxit stp (n + 1) i (it.i + 1) st it = (st, it, i, it.i + 1, none) := by
        simp only [gmInner, if_neg hc]
      rw [e]
      refine ⟨g, rfl, rfl, le_refl _, by dsimp only; omega, rfl, id, fun _ => ⟨hI, ?_⟩, fun h => absurd rfl h⟩
      rcases not_and_or.1 hc with h | h
      · right; left; dsimp only; omega
      · right; right; simpa using h

/-- With at least one pass the inner loop makes progress. -/
theorem gmInner_pos {E : Env K Rl X} {red : Rl} {maxit : Nat} {stp : Nat → GmSt K X Rl → Option (GmSt K X Rl)} {n i : Nat}
    {st : GmSt K X Rl} {it : It Rl} (g : Good E red it) (hc : it.i + 1 ≤ maxit ∧ it.converged = false)
    (hn : (gmInner E red maxit stp (n + 1) i (it.i + 1) st it).2.2.2.2 = none) :
    i < (gmInner E red maxit stp (n + 1) i (it.i + 1) st it).2.2.1 := by
  simp only [gmInner, if_pos hc] at hn ⊢
  cases hst : stp i st with
  | none => rw [hst] at hn; cases hn
  | some st' =>
    rw [hst] at hn
    dsimp only at hn ⊢
    cases hs : it.step E red (it.i + 1) st'.norm with
    | none => rw [hs] at hn; cases hn
    | some it' =>
      dsimp only
      obtain ⟨g', hi, -, -⟩ := good_step g hs
      have := (gmInner_spec (E := E) (red := red) (maxit := maxit) (stp := stp) (fun _ _ _ => True) (fun _ _ _ _ _ _ _ => trivial)
        n (i + 1) st' it' trivial g' _ rfl).2.2.2.1
      rw [hi] at this
      omega

/-- Invariants of the outer GMRes loop: `J` holds between passes, `I i` inside a pass after `i` steps. -/
theorem gmOuter_spec {E : Env K Rl X} {red : Rl} {maxit m : Nat} {stp : Nat → GmSt K X Rl → Option (GmSt K X Rl)}
    {start restart : GmSt K X Rl → GmSt K X Rl} (J : GmSt K X Rl → Rl → Prop) (P : X → X → Rl → Prop)
    (I : Nat → GmSt K X Rl → Rl → Prop)
    (hstart : ∀ st d, J st d → (∃ d0, small E red d0 d = false) → I 0 (gmResetS E m (start st)) d)
    (hstp : ∀ i st d st', I i st d → (∃ d0, small E red d0 d = false) → stp i st = some st' → I (i + 1) st' st'.norm)
    (hP : ∀ i st d, I i st d → i ≤ m → P (st.x + gmUpdate i st.H st.s st.y) st.b d)
    (hJ : ∀ i st d, I i st d → 0 < i → i ≤ m → J (restart { st with x := st.x + gmUpdate i st.H st.s st.y }) d)
    (hstale : (∃ k, 0 < k ∧ maxit = k * m + 1) →
      ∀ i st d, I i st d → 0 < i → i ≤ m → J { st with x := st.x + gmUpdate i st.H st.s st.y } d)
    (hPr : ∀ st d, P st.x st.b d → P (restart st).x (restart st).b d) (hm : 0 < m) :
    ∀ fuel st it, ((it.i + 1 ≤ maxit ∧ it.converged = false) → m ∣ it.i) → ((it.i + 1 ≤ maxit ∧ it.converged = false) → J st it.cur) → P st.x st.b it.cur → Good E red it → it.i ≤ maxit →
      ∀ r, gmOuter E red maxit m stp start restart fuel (it.i + 1) st it = some r →
      Good E red r.2.1 ∧ r.2.1.def0 = it.def0 ∧ r.2.1.i ≤ maxit ∧
      (r.2.2 = none → P r.1.x r.1.b r.2.1.cur ∧ (r.2.1.converged = false → r.2.1.i = maxit)) ∧
      (r.2.2 ≠ none → r.2.2 = some .solverAbort ∧ r.2.1.converged = false ∧ r.2.1.i < maxit) := by
  intro fuel
  induction fuel with
  | zero =>
    intro st it hdv hJ0 hP0 g hle r hr
    unfold gmOuter at hr
    split at hr
    · cases hr
    · rename_i hc
      obtain rfl := Option.some.inj hr
      refine ⟨g, rfl, hle, fun _ => ⟨hP0, fun h => ?_⟩, fun h => absurd rfl h⟩
      rcases not_and_or.1 hc with hc | hc
      · dsimp only; omega
      · exact absurd h hc
  | succ fuel ih =>
    intro st it hdv hJ0 hP0 g hle r hr
    unfold gmOuter at hr
    by_cases hc : it.i + 1 ≤ maxit ∧ it.converged = false
    · rw [if_pos hc] at hr
      dsimp only at hr
      have hin := gmInner_spec (E := E) (red := red) (maxit := maxit) I hstp m 0 _ it (hstart st _ (hJ0 hc) ⟨it.def0, by rw [← g.conv]; exact hc.2⟩) g _ rfl
      have hpos := fun h => gmInner_pos (E := E) (red := red) (maxit := maxit) (stp := stp) (n := m - 1) (i := 0)
        (st := gmResetS E m (start st)) g hc h
      rw [Nat.sub_add_cancel hm] at hpos
      generalize gmInner E red maxit stp m 0 (it.i + 1) _ it = R at hr hin hpos
      obtain ⟨st1, it1, i1, j1, ex1⟩ := R
      obtain ⟨a1, a2, a3, a4, a5, a6, a7, a8, a9⟩ := hin
      dsimp only at *
      cases ex1 with
      | some e =>
        obtain rfl := Option.some.inj hr
        exact ⟨a1, a2, a7 hle, fun h => (by cases h), fun _ => a9 (by simp)⟩
      | none =>
        dsimp only at hr
        obtain ⟨b1, b2⟩ := a8 rfl
        have hp := hpos rfl
        have hPP := hP i1 st1 _ b1 (by omega)
        rw [a3] at hr
        have hdv1 : (it1.i + 1 ≤ maxit ∧ it1.converged = false) → m ∣ it1.i := by
          intro hh
          have e1 : i1 = m := by
            rcases b2 with h | h | h
            · omega
            · omega
            · rw [hh.2] at h; cases h
          obtain ⟨k, hk⟩ := hdv hc
          exact ⟨k + 1, by rw [Nat.mul_add, ← hk]; omega⟩
        have := ih _ it1 hdv1 (fun hh => ?_) ?_ a1 (a7 hle) r hr
        · exact ⟨this.1, this.2.1.trans a2, this.2.2.1, this.2.2.2.1, this.2.2.2.2⟩
        · by_cases hrs : it1.converged = false ∧ it1.i + 1 < maxit
          · rw [if_pos hrs]
            exact hJ i1 st1 _ b1 hp (by omega)
          · rw [if_neg hrs]
            refine hstale ?_ i1 st1 _ b1 hp (by omega)
            obtain ⟨k, hk⟩ := hdv1 hh
            refine ⟨k, Nat.pos_of_ne_zero fun h0 => ?_, ?_⟩
            · rw [h0, Nat.mul_zero] at hk; omega
            · rw [Nat.mul_comm, ← hk]
              by_contra hne
              exact hrs ⟨hh.2, by omega⟩
        · split
          · exact hPr _ _ hPP
          · exact hPP
    · rw [if_neg hc] at hr
      obtain rfl := Option.some.inj hr
      refine ⟨g, rfl, hle, fun _ => ⟨hP0, fun h => ?_⟩, fun h => absurd rfl h⟩
      rcases not_and_or.1 hc with hc | hc
      · dsimp only; omega
      · exact absurd h hc

/-- The outer loop ends. -/
theorem gmOuter_total {E : Env K Rl X} {red : Rl} {maxit m : Nat} {stp : Nat → GmSt K X Rl → Option (GmSt K X Rl)}
    {start restart : GmSt K X Rl → GmSt K X Rl} (hm : 0 < m) :
    ∀ fuel st it, Good E red it → maxit ≤ it.i + fuel → (gmOuter E red maxit m stp start restart fuel (it.i + 1) st it).isSome := by
  intro fuel
  induction fuel with
  | zero =>
    intro st it g hf
    unfold gmOuter
    rw [if_neg (by omega)]
    rfl
  | succ fuel ih =>
    intro st it g hf
    unfold gmOuter
    by_cases hc : it.i + 1 ≤ maxit ∧ it.converged = false
    · rw [if_pos hc]
      dsimp only
      have hin := gmInner_spec (E := E) (red := red) (maxit := maxit) (stp := stp) (fun _ _ _ => True) (fun _ _ _ _ _ _ _ => trivial)
        m 0 (gmResetS E m (start st)) it trivial g _ rfl
      have hpos := fun h => gmInner_pos (E := E) (red := red) (maxit := maxit) (stp := stp) (n := m - 1) (i := 0)
        (st := gmResetS E m (start st)) g hc h
      rw [Nat.sub_add_cancel hm] at hpos
      generalize gmInner E red maxit stp m 0 (it.i + 1) _ it = R at hin hpos
      obtain ⟨st1, it1, i1, j1, ex1⟩ := R
      obtain ⟨a1, a2, a3, a4, a5, a6, a7, a8, a9⟩ := hin
      dsimp only at *
      cases ex1 with
      | some e => rfl
      | none =>
        dsimp only
        have hp := hpos rfl
        rw [a3]
        exact ih _ it1 a1 (by omega)
    · rw [if_neg hc]; rfl

/-- With an empty basis (`restart = 0`) the outer loop never ends unless it is not entered. -/
theorem gmOuter_diverges {E : Env K Rl X} {red : Rl} {maxit : Nat} {stp : Nat → GmSt K X Rl → Option (GmSt K X Rl)}
    {start restart : GmSt K X Rl → GmSt K X Rl} :
    ∀ fuel j st (it : It Rl), j ≤ maxit → it.converged = false → gmOuter E red maxit 0 stp start restart fuel j st it = none := by
  intro fuel
  induction fuel with
  | zero => intro j st it h1 h2; unfold gmOuter; rw [if_pos ⟨h1, h2⟩]
  | succ fuel ih =>
    intro j st it h1 h2
    unfold gmOuter
    rw [if_pos ⟨h1, h2⟩]
    simp only [gmInner]
    exact ih _ _ _ h1 h2

/-- The GMRes frame, for a solver given by step, start and restart. -/
theorem gm_spec {E : Env K Rl X} {red : Rl} {maxit m fuel : Nat} {stp : Nat → GmSt K X Rl → Option (GmSt K X Rl)}
    {start restart : GmSt K X Rl → GmSt K X Rl} {x0 bA b0 : X} {d : Rl} {st0 : GmSt K X Rl} {e : Exit X Rl}
    (J : GmSt K X Rl → Rl → Prop) (P : X → X → Rl → Prop) (I : Nat → GmSt K X Rl → Rl → Prop)
    (hstart : ∀ st d, J st d → (∃ d0, small E red d0 d = false) → I 0 (gmResetS E m (start st)) d)
    (hstp : ∀ i st d st', I i st d → (∃ d0, small E red d0 d = false) → stp i st = some st' → I (i + 1) st' st'.norm)
    (hP : ∀ i st d, I i st d → i ≤ m → P (st.x + gmUpdate i st.H st.s st.y) st.b d)
    (hJ : ∀ i st d, I i st d → 0 < i → i ≤ m → J (restart { st with x := st.x + gmUpdate i st.H st.s st.y }) d)
    (hstale : (∃ k, 0 < k ∧ maxit = k * m + 1) →
      ∀ i st d, I i st d → 0 < i → i ≤ m → J { st with x := st.x + gmUpdate i st.H st.s st.y } d)
    (hPr : ∀ st d, P st.x st.b d → P (restart st).x (restart st).b d) (hm : 0 < m)
    (hex : ∀ x b, ∃ d, P x b d)
    (h0 : P x0 bA d) (h0' : P st0.x st0.b d) (hJ0 : J st0 d)
    (he : (match It.start.step E red 0 d with
      | none => some { x := b0, b := bA, it := It.start, exc := some .solverAbort }
      | some it =>
        if it.converged then some { x := E.post x0, b := bA, it := it, exc := none }
        else (gmOuter E red maxit m stp start restart fuel 1 st0 it).map (gmExit E)) = some e) :
    RunSpec E red maxit True P d e := by
  cases hs : It.start.step E red 0 d with
  | none =>
    rw [hs] at he
    obtain rfl := Option.some.inj he
    exact ⟨Nat.zero_le _, fun h => (by cases h), fun _ => ⟨rfl, Or.inl ⟨step_none hs, rfl⟩⟩, fun _ => hex _ _⟩
  | some it =>
    obtain ⟨g, hi, hd, hcur⟩ := good_start hs
    rw [hs] at he
    dsimp only at he
    by_cases hc : it.converged = true
    · rw [if_pos hc] at he
      obtain rfl := Option.some.inj he
      refine ⟨by dsimp only; omega, fun _ => ⟨g, hd, ⟨_, rfl, ?_⟩, fun h => by dsimp only at h; rw [hc] at h; cases h⟩,
        fun h => absurd rfl h, fun h => absurd rfl h⟩
      rw [hcur]; exact h0
    · rw [if_neg hc, Option.map_eq_some_iff] at he
      obtain ⟨⟨st', it', ex⟩, hr, rfl⟩ := he
      rw [show (1 : Nat) = it.i + 1 by omega] at hr
      obtain ⟨a1, a2, a3, a4, a5⟩ := gmOuter_spec J P I hstart hstp hP hJ hstale hPr hm fuel st0 it
        (fun _ => by rw [hi]; exact ⟨0, rfl⟩) (fun _ => by rw [hcur]; exact hJ0) (by rw [hcur]; exact h0') g (by omega) _ hr
      cases ex with
      | some e =>
        obtain ⟨b1, b2, b3⟩ := a5 (by simp)
        exact ⟨a3, fun h => (by cases h), fun _ => ⟨b1, Or.inr ⟨a1, a2.trans hd, fun _ => b2, b3⟩⟩, fun _ => hex _ _⟩
      | none =>
        obtain ⟨b1, b2⟩ := a4 rfl
        exact ⟨a3, fun _ => ⟨a1, a2.trans hd, ⟨_, rfl, b1⟩, b2⟩, fun h => absurd rfl h, fun h => absurd rfl h⟩

/-- GMRes with trivial invariants. -/
theorem gm_run {E : Env K Rl X} {red : Rl} {maxit m fuel : Nat} {x b : X} {e : Exit X Rl} (hm : 0 < m)
    (he : gmApply E red maxit m fuel x b = some e) :
    RunSpec E red maxit True (fun _ _ _ => True) (E.norm (E.prec 0 (defect0 E x b))) e := by
  unfold gmApply gmApplyWith at he
  exact gm_spec (fun _ _ => True) (fun _ _ _ => True) (fun _ _ _ => True) (fun _ _ _ _ => trivial) (fun _ _ _ _ _ _ _ => trivial)
    (fun _ _ _ _ _ => trivial) (fun _ _ _ _ _ _ => trivial) (fun _ _ _ _ _ _ _ => trivial) (fun _ _ _ => trivial) hm
    (fun _ _ => ⟨E.norm x, trivial⟩) trivial trivial trivial he

theorem fgm_run {E : Env K Rl X} {red : Rl} {maxit m fuel : Nat} {x b : X} {e : Exit X Rl} (hm : 0 < m)
    (he : fgmApply E red maxit m fuel x b = some e) :
    RunSpec E red maxit True (fun _ _ _ => True) (E.norm (defect0 E x b)) e := by
  unfold fgmApply fgmApplyWith at he
  exact gm_spec (fun _ _ => True) (fun _ _ _ => True) (fun _ _ _ => True) (fun _ _ _ _ => trivial) (fun _ _ _ _ _ _ _ => trivial)
    (fun _ _ _ _ _ => trivial) (fun _ _ _ _ _ _ => trivial) (fun _ _ _ _ _ _ _ => trivial) (fun _ _ _ => trivial) hm
    (fun _ _ => ⟨E.norm x, trivial⟩) trivial trivial trivial he

end Gm

/-! ## The solvers: the last recorded defect is the norm of the returned right hand side -/

section Runs
variable [Add X] [SMul K X] [Mul Rl] [Zero Rl] [Zero K] [Neg K] [Div K]

theorem loop_run (E : Env K Rl X) (red : Rl) (maxit : Nat) (x b : X) :
    RunSpec E red maxit True (fun _ b d => d = E.norm b) (E.norm (defect0 E x b)) (loopApply (K := K) E red maxit x b) :=
  frame_spec _ (fun s d => d = E.norm s.2) rfl rfl (fun _ _ _ _ => rfl) (fun _ _ _ h => h) (fun _ _ h => h)

theorem grad_run (E : Env K Rl X) (red : Rl) (maxit : Nat) (x b : X) :
    RunSpec E red maxit True (fun _ b d => d = E.norm b) (E.norm (defect0 E x b)) (gradApply E red maxit x b) :=
  frame_spec _ (fun s d => d = E.norm s.b) rfl rfl (fun _ _ _ _ => rfl) (fun _ _ _ h => h) (fun _ _ h => h)

theorem cg_run (E : Env K Rl X) (red : Rl) (maxit : Nat) (x b : X) :
    RunSpec E red maxit True (fun _ b d => d = E.norm b) (E.norm (defect0 E x b)) (cgApply E red maxit x b) :=
  frame_spec _ (fun s d => d = E.norm s.b) rfl rfl (fun _ _ _ _ => rfl) (fun _ _ _ h => h) (fun _ _ h => h)

theorem biFirst_eq [One K] [Mul K] {E : Env K Rl X} {k : Nat} {s s' : BiSt K X Rl} {rho : K} (h : biFirst E k s = some (s', rho)) :
    ∃ (al : K) (y : X), y = E.prec (2 * k) (biDir E k s (E.dot s.rt s.r)) ∧ s'.x = s.x + al • y ∧ s'.r = s.r + (-al) • E.op y ∧
      s'.norm = E.norm s'.r ∧ s'.rt = s.rt := by
  unfold biFirst at h
  dsimp only at h
  split at h
  · cases h
  · split at h
    · cases h
    · split at h
      · cases h
      · obtain ⟨rfl, rfl⟩ := Prod.mk.inj (Option.some.inj h)
        exact ⟨_, _, rfl, rfl, rfl, rfl, rfl⟩

theorem bi_run [One K] [Mul K] [Zero X] (E : Env K Rl X) (red : Rl) (maxit : Nat) (x b : X) :
    RunSpec E red (2 * maxit) True (fun _ b d => d = E.norm b) (E.norm (defect0 E x b)) (biApply E red maxit x b) := by
  refine bi_spec _ (fun s d => d = E.norm s.r) rfl rfl ?_ (fun _ _ _ _ _ => rfl) (fun _ _ h => h)
  intro k s d s' rho _ h
  obtain ⟨al, y, -, -, h3, h4, -⟩ := biFirst_eq h
  exact h4

end Runs

section Runs2
variable [Add X] [SMul K X] [Zero X] [Zero K] [One K] [Neg K] [Mul K] [Div K] [Zero Rl] [Mul Rl]

theorem min_run [Add K] [Sub K] [One Rl] [Add Rl] [Div Rl] (E : Env K Rl X) (red : Rl) (maxit : Nat) (x b : X) :
    RunSpec E red maxit True (fun _ _ _ => True) (E.norm (E.prec 0 (defect0 E x b))) (minApply E red maxit x b) :=
  frame_spec (meas := fun b => E.norm (E.prec 0 b)) _ (fun _ _ => True) trivial trivial (fun _ _ _ _ => trivial)
    (fun _ _ _ h => h) (fun _ _ h => h)

end Runs2

/-! ## Generalised PCG -/

section Gp
variable [Add X] [SMul K X] [Zero X] [Zero K] [One K] [Neg K] [Mul K] [Div K] [Zero Rl] [Mul Rl]

theorem gpInner_spec {E : Env K Rl X} {red : Rl} (J : GpSt K X Rl → Rl → Prop)
    (hstp : ∀ i ii st d, J st d → J (gpMinimise E ii (gpDirection E i ii st)) (gpMinimise E ii (gpDirection E i ii st)).d) :
    ∀ n ii st it, J st it.cur → Good E red it → ∀ r, gpInner E red n ii it.i st it = r →
      Good E red r.2.1 ∧ r.2.1.def0 = it.def0 ∧
      (r.2.2.2 = none → J r.1 r.2.1.cur ∧ r.2.2.1 = r.2.1.i ∧ r.2.1.i = it.i + n) ∧
      (r.2.2.2 ≠ none → r.2.2.2 = some .solverAbort ∧ r.2.1.i < it.i + n ∧ ∃ d, J r.1 d) := by
  intro n
  induction n with
  | zero =>
    rintro ii st it hJ g r rfl
    exact ⟨g, rfl, fun _ => ⟨hJ, rfl, rfl⟩, fun h => absurd rfl h⟩
  | succ n ih =>
    rintro ii st it hJ g r rfl
    simp only [gpInner]
    have hJ' := hstp it.i ii st _ hJ
    cases hs : it.step E red (it.i + 1) (gpMinimise E ii (gpDirection E it.i ii st)).d with
    | none => exact ⟨g, rfl, fun h => (by cases h), fun _ => ⟨rfl, by dsimp only; omega, _, hJ'⟩⟩
    | some it' =>
      obtain ⟨g', hi, hd, hcur⟩ := good_step g hs
      dsimp only
      have := ih (ii + 1) _ it' (by rw [hcur]; exact hJ') g' _ rfl
      rw [hi] at this
      obtain ⟨a1, a2, a3, a4⟩ := this
      refine ⟨a1, a2.trans hd, fun h => ?_, fun h => ?_⟩
      · obtain ⟨b1, b2, b3⟩ := a3 h
        exact ⟨b1, b2, by omega⟩
      · obtain ⟨b1, b2, b3⟩ := a4 h
        exact ⟨b1, by omega, b3⟩

theorem gpOuter_spec {E : Env K Rl X} {red : Rl} {maxit restart : Nat} (J : GpSt K X Rl → Rl → Prop)
    (hstp : ∀ i ii st d, J st d → J (gpMinimise E ii (gpDirection E i ii st)) (gpMinimise E ii (gpDirection E i ii st)).d)
    (hre : ∀ st d p pp, J st d → J { st with p := p, pp := pp } d) :
    ∀ fuel st it, J st it.cur → Good E red it → it.i ≤ max 1 maxit → 1 ≤ it.i →
      ∀ r, gpOuter E red maxit restart fuel it.i st it = some r →
      Good E red r.2.1 ∧ r.2.1.def0 = it.def0 ∧ r.2.1.i ≤ max 1 maxit ∧
      (r.2.2 = none → J r.1 r.2.1.cur ∧ (r.2.1.converged = false → r.2.1.i = max 1 maxit)) ∧
      (r.2.2 ≠ none → r.2.2 = some .solverAbort ∧ r.2.1.i < max 1 maxit ∧ ∃ d, J r.1 d) := by
  intro fuel
  induction fuel with
  | zero =>
    intro st it hJ g hle h1 r hr
    unfold gpOuter at hr
    split at hr
    · cases hr
    · obtain rfl := Option.some.inj hr
      exact ⟨g, rfl, hle, fun _ => ⟨hJ, fun _ => by dsimp only; omega⟩, fun h => absurd rfl h⟩
  | succ fuel ih =>
    intro st it hJ g hle h1 r hr
    unfold gpOuter at hr
    by_cases hc : it.i < maxit
    · rw [if_pos hc] at hr
      dsimp only at hr
      have hin := gpInner_spec J hstp (min restart (maxit - it.i + 1) - 1) 1 st it hJ g _ rfl
      generalize gpInner E red (min restart (maxit - it.i + 1) - 1) 1 it.i st it = R at hr hin
      obtain ⟨st1, it1, i1, ex⟩ := R
      obtain ⟨a1, a2, a3, a4⟩ := hin
      dsimp only at *
      cases ex with
      | some e =>
        obtain rfl := Option.some.inj hr
        obtain ⟨b1, b2, b3⟩ := a4 (by simp)
        exact ⟨a1, a2, by dsimp only; omega, fun h => (by cases h), fun _ => ⟨b1, by dsimp only; omega, b3⟩⟩
      | none =>
        obtain ⟨b1, b2, b3⟩ := a3 rfl
        dsimp only at hr
        by_cases hcv : it1.converged = true
        · rw [if_pos hcv] at hr
          obtain rfl := Option.some.inj hr
          refine ⟨a1, a2, by dsimp only; omega, fun _ => ⟨b1, fun h => ?_⟩, fun h => absurd rfl h⟩
          dsimp only at h; rw [hcv] at h; cases h
        · rw [if_neg hcv, b2] at hr
          have := ih _ it1 ?_ a1 (by omega) (by omega) r hr
          · exact ⟨this.1, this.2.1.trans a2, this.2.2.1, this.2.2.2.1, this.2.2.2.2⟩
          · split
            · exact hre _ _ _ _ b1
            · exact b1
    · rw [if_neg hc] at hr
      obtain rfl := Option.some.inj hr
      exact ⟨g, rfl, hle, fun _ => ⟨hJ, fun _ => by dsimp only; omega⟩, fun h => absurd rfl h⟩

theorem gpOuter_total {E : Env K Rl X} {red : Rl} {maxit restart : Nat} (hm : 2 ≤ restart) :
    ∀ fuel st it, Good E red it → maxit ≤ it.i + fuel → (gpOuter E red maxit restart fuel it.i st it).isSome := by
  intro fuel
  induction fuel with
  | zero => intro st it g hf; unfold gpOuter; rw [if_neg (by omega)]; rfl
  | succ fuel ih =>
    intro st it g hf
    unfold gpOuter
    by_cases hc : it.i < maxit
    · rw [if_pos hc]
      dsimp only
      have hin := gpInner_spec (E := E) (red := red) (fun _ _ => True) (fun _ _ _ _ _ => trivial)
        (min restart (maxit - it.i + 1) - 1) 1 st it trivial g _ rfl
      generalize gpInner E red (min restart (maxit - it.i + 1) - 1) 1 it.i st it = R at hin
      obtain ⟨st1, it1, i1, ex⟩ := R
      obtain ⟨a1, a2, a3, a4⟩ := hin
      dsimp only at *
      cases ex with
      | some e => rfl
      | none =>
        obtain ⟨b1, b2, b3⟩ := a3 rfl
        dsimp only
        by_cases hcv : it1.converged = true
        · rw [if_pos hcv]; rfl
        · rw [if_neg hcv, b2]
          exact ih _ it1 a1 (by omega)
    · rw [if_neg hc]; rfl

/-- With `restart = 1` the inner loop is empty and the outer loop never ends. -/
theorem gpOuter_diverges {E : Env K Rl X} {red : Rl} {maxit : Nat} :
    ∀ fuel i st (it : It Rl), i < maxit → it.converged = false → gpOuter E red maxit 1 fuel i st it = none := by
  intro fuel
  induction fuel with
  | zero => intro i st it h1 h2; unfold gpOuter; rw [if_pos h1]
  | succ fuel ih =>
    intro i st it h1 h2
    unfold gpOuter
    have e : min 1 (maxit - i + 1) - 1 = 0 := by omega
    rw [if_pos h1]
    simp only [e, gpInner, h2, Bool.false_eq_true, if_false]
    exact ih _ _ _ h1 h2

theorem gp_spec {E : Env K Rl X} {red : Rl} {maxit restart fuel : Nat} {x b : X} {e : Exit X Rl}
    (I : X → X → Rl → Prop) (J : GpSt K X Rl → Rl → Prop)
    (h0 : I (E.pre x b).1 (defect0 E x b) (E.norm (defect0 E x b)))
    (hinit : ∀ p pp, J (gpMinimise E 0 ⟨(E.pre x b).1, defect0 E x b, p, pp, E.norm (defect0 E x b)⟩)
      (gpMinimise E 0 ⟨(E.pre x b).1, defect0 E x b, p, pp, E.norm (defect0 E x b)⟩).d)
    (hstp : ∀ i ii st d, J st d → J (gpMinimise E ii (gpDirection E i ii st)) (gpMinimise E ii (gpDirection E i ii st)).d)
    (hre : ∀ st d p pp, J st d → J { st with p := p, pp := pp } d)
    (hJ : ∀ s d, J s d → I s.x s.b d) (he : gpApply E red maxit restart fuel x b = some e) :
    RunSpec E red (max 1 maxit) False I (E.norm (defect0 E x b)) e := by
  unfold gpApply at he
  dsimp only at he
  rw [show E.subOp (E.pre x b).1 (E.pre x b).2 = defect0 E x b from rfl] at he
  cases hs : It.start.step E red 0 (E.norm (defect0 E x b)) with
  | none =>
    rw [hs] at he
    obtain rfl := Option.some.inj he
    exact ⟨Nat.zero_le _, fun h => (by cases h), fun _ => ⟨rfl, Or.inl ⟨step_none hs, rfl⟩⟩, fun _ => ⟨_, h0⟩⟩
  | some it =>
    obtain ⟨g, hi, hd, hcur⟩ := good_start hs
    rw [hs] at he
    dsimp only at he
    by_cases hc : it.converged = true
    · rw [if_pos hc] at he
      obtain rfl := Option.some.inj he
      refine ⟨by dsimp only; omega, fun _ => ⟨g, hd, ⟨_, rfl, ?_⟩, fun h => by dsimp only at h; rw [hc] at h; cases h⟩,
        fun h => absurd rfl h, fun h => absurd rfl h⟩
      rw [hcur]; exact h0
    · rw [if_neg hc] at he
      have hJ1 := hinit (fun _ => E.prec 0 (defect0 E x b)) (fun _ => 0)
      generalize gpMinimise E 0 _ = st at he hJ1
      have e01 : (1 : Nat) = it.i + 1 := by omega
      cases hs1 : it.step E red 1 st.d with
      | none =>
        rw [hs1] at he
        obtain rfl := Option.some.inj he
        exact ⟨by dsimp only; omega, fun h => (by cases h), fun _ => ⟨rfl, Or.inr ⟨g, hd, fun h => h.elim, by dsimp only; omega⟩⟩,
          fun _ => ⟨_, hJ _ _ hJ1⟩⟩
      | some it1 =>
        rw [hs1] at he
        rw [e01] at hs1
        obtain ⟨g1, hi1, hd1, hc1⟩ := good_step g hs1
        dsimp only at he
        by_cases hcv : it1.converged = true
        · rw [if_pos hcv] at he
          obtain rfl := Option.some.inj he
          refine ⟨by dsimp only; omega, fun _ => ⟨g1, hd1.trans hd, ⟨_, rfl, ?_⟩, fun h => by dsimp only at h; rw [hcv] at h; cases h⟩,
            fun h => absurd rfl h, fun h => absurd rfl h⟩
          dsimp only
          rw [hc1]; exact hJ _ _ hJ1
        · rw [if_neg hcv, Option.map_eq_some_iff] at he
          obtain ⟨⟨st', it', ex⟩, hr, rfl⟩ := he
          have hi1' : it1.i = 1 := by omega
          rw [← hi1'] at hr
          obtain ⟨a1, a2, a3, a4, a5⟩ := gpOuter_spec J hstp hre fuel st it1 (by rw [hc1]; exact hJ1) g1 (by omega) (by omega) _ hr
          cases ex with
          | some e =>
            obtain ⟨b1, b2, d', b3⟩ := a5 (by simp)
            exact ⟨a3, fun h => (by cases h), fun _ => ⟨b1, Or.inr ⟨a1, a2.trans (hd1.trans hd), fun h => h.elim, b2⟩⟩, fun _ => ⟨d', hJ _ _ b3⟩⟩
          | none =>
            obtain ⟨b1, b2⟩ := a4 rfl
            exact ⟨a3, fun _ => ⟨a1, a2.trans (hd1.trans hd), ⟨_, rfl, hJ _ _ b1⟩, b2⟩, fun h => absurd rfl h, fun h => absurd rfl h⟩

theorem gp_run {E : Env K Rl X} {red : Rl} {maxit restart fuel : Nat} {x b : X} {e : Exit X Rl}
    (he : gpApply E red maxit restart fuel x b = some e) :
    RunSpec E red (max 1 maxit) False (fun _ b d => d = E.norm b) (E.norm (defect0 E x b)) e :=
  gp_spec _ (fun s d => d = E.norm s.b) rfl (fun _ _ => rfl) (fun _ _ _ _ _ => rfl) (fun _ _ _ _ h => h) (fun _ _ h => h) he

end Gp

/-! ## Flexible CG -/

section Fc
variable [Add X] [SMul K X] [Zero X] [Zero K] [One K] [Neg K] [Mul K] [Div K] [Zero Rl] [Mul Rl]

theorem fcInner_spec {E : Env K Rl X} {red : Rl} {mmax : Nat} {orth : Nat → X → FcSt K X Rl → FcSt K X Rl}
    (J : FcSt K X Rl → Rl → Prop) (hstp : ∀ i ib st d, J st d → J (fcStep E orth i ib st) (fcStep E orth i ib st).def') :
    ∀ n ib st it, J st it.cur → Good E red it → ∀ r, fcInner E red mmax orth n (it.i + 1) ib st it = r →
      Good E red r.2.1 ∧ r.2.1.def0 = it.def0 ∧
      (r.2.2.2.2 = none → J r.1 r.2.1.cur ∧ r.2.2.1 = r.2.1.i + 1 ∧ it.i ≤ r.2.1.i ∧ r.2.1.i ≤ it.i + n ∧
        (0 < n → ib ≤ mmax → it.i < r.2.1.i)) ∧
      (r.2.2.2.2 ≠ none → r.2.2.2.2 = some .solverAbort ∧ r.2.1.i < it.i + n ∧ ∃ d, J r.1 d) := by
  intro n
  induction n with
  | zero =>
    rintro ib st it hJ g r rfl
    exact ⟨g, rfl, fun _ => ⟨hJ, rfl, le_refl _, le_refl _, fun h => absurd h (lt_irrefl _)⟩, fun h => absurd rfl h⟩
  | succ n ih =>
    rintro ib st it hJ g r rfl
    by_cases hb : ib ≤ mmax
    · simp only [fcInner, if_pos hb]
      have hJ' := hstp (it.i + 1) ib st _ hJ
      cases hs : it.step E red (it.i + 1) (fcStep E orth (it.i + 1) ib st).def' with
      | none => exact ⟨g, rfl, fun h => (by cases h), fun _ => ⟨rfl, by dsimp only; omega, _, hJ'⟩⟩
      | some it' =>
        obtain ⟨g', hi, hd, hcur⟩ := good_step g hs
        dsimp only
        have := ih (ib + 1) _ it' (by rw [hcur]; exact hJ') g' _ rfl
        rw [hi] at this
        obtain ⟨a1, a2, a3, a4⟩ := this
        refine ⟨a1, a2.trans hd, fun h => ?_, fun h => ?_⟩
        · obtain ⟨b1, b2, b3, b4, b5⟩ := a3 h
          exact ⟨b1, b2, by omega, by omega, fun _ _ => by omega⟩
        · obtain ⟨b1, b2, b3⟩ := a4 h
          exact ⟨b1, by omega, b3⟩
    · have e : fcInner E red mmax orth (n + 1) (it.i + 1) ib st it = (st, it, it.i + 1, ib, none) := by
        simp only [fcInner, if_neg hb]
      rw [e]
      exact ⟨g, rfl, fun _ => ⟨hJ, rfl, le_refl _, by dsimp only; omega, fun _ h => absurd h hb⟩, fun h => absurd rfl h⟩

theorem fcOuter_spec {E : Env K Rl X} {red : Rl} {maxit mmax : Nat} {orth : Nat → X → FcSt K X Rl → FcSt K X Rl}
    {cycle : FcSt K X Rl → Nat × FcSt K X Rl}
    (J : FcSt K X Rl → Rl → Prop) (hstp : ∀ i ib st d, J st d → J (fcStep E orth i ib st) (fcStep E orth i ib st).def')
    (hcyc : ∀ st d, J st d → J (cycle st).2 d) :
    ∀ fuel ib st it, J st it.cur → Good E red it → it.i ≤ maxit →
      ∀ r, fcOuter E red maxit mmax orth cycle fuel (it.i + 1) ib st it = some r →
      Good E red r.2.1 ∧ r.2.1.def0 = it.def0 ∧ r.2.1.i ≤ maxit ∧
      (r.2.2 = none → J r.1 r.2.1.cur ∧ (r.2.1.converged = false → r.2.1.i = maxit)) ∧
      (r.2.2 ≠ none → r.2.2 = some .solverAbort ∧ r.2.1.i < maxit ∧ ∃ d, J r.1 d) := by
  intro fuel
  induction fuel with
  | zero =>
    intro ib st it hJ g hle r hr
    unfold fcOuter at hr
    split at hr
    · cases hr
    · rename_i hc
      obtain rfl := Option.some.inj hr
      refine ⟨g, rfl, hle, fun _ => ⟨hJ, fun h => ?_⟩, fun h => absurd rfl h⟩
      rcases not_and_or.1 hc with hc | hc
      · dsimp only; omega
      · exact absurd h hc
  | succ fuel ih =>
    intro ib st it hJ g hle r hr
    unfold fcOuter at hr
    by_cases hc : it.i + 1 ≤ maxit ∧ it.converged = false
    · rw [if_pos hc] at hr
      dsimp only at hr
      have hin := fcInner_spec (red := red) (mmax := mmax) J hstp (maxit + 1 - (it.i + 1)) ib st it hJ g _ rfl
      generalize fcInner E red mmax orth (maxit + 1 - (it.i + 1)) (it.i + 1) ib st it = R at hr hin
      obtain ⟨st1, it1, i1, ib1, ex⟩ := R
      obtain ⟨a1, a2, a3, a4⟩ := hin
      dsimp only at *
      cases ex with
      | some e =>
        obtain rfl := Option.some.inj hr
        obtain ⟨b1, b2, b3⟩ := a4 (by simp)
        exact ⟨a1, a2, by dsimp only; omega, fun h => (by cases h), fun _ => ⟨b1, by dsimp only; omega, b3⟩⟩
      | none =>
        obtain ⟨b1, b2, b3, b4, b5⟩ := a3 rfl
        dsimp only at hr
        rw [b2] at hr
        have := ih _ _ it1 (hcyc _ _ b1) a1 (by omega) r hr
        exact ⟨this.1, this.2.1.trans a2, this.2.2.1, this.2.2.2.1, this.2.2.2.2⟩
    · rw [if_neg hc] at hr
      obtain rfl := Option.some.inj hr
      refine ⟨g, rfl, hle, fun _ => ⟨hJ, fun h => ?_⟩, fun h => absurd rfl h⟩
      rcases not_and_or.1 hc with hc | hc
      · dsimp only; omega
      · exact absurd h hc

theorem fcOuter_total {E : Env K Rl X} {red : Rl} {maxit mmax : Nat} {orth : Nat → X → FcSt K X Rl → FcSt K X Rl}
    {cycle : FcSt K X Rl → Nat × FcSt K X Rl} (hc : ∀ st, (cycle st).1 ≤ mmax) :
    ∀ fuel ib st it, ib ≤ mmax → Good E red it → maxit ≤ it.i + fuel →
      (fcOuter E red maxit mmax orth cycle fuel (it.i + 1) ib st it).isSome := by
  intro fuel
  induction fuel with
  | zero => intro ib st it _ g hf; unfold fcOuter; rw [if_neg (by omega)]; rfl
  | succ fuel ih =>
    intro ib st it hib g hf
    unfold fcOuter
    by_cases hcd : it.i + 1 ≤ maxit ∧ it.converged = false
    · rw [if_pos hcd]
      dsimp only
      have hin := fcInner_spec (E := E) (red := red) (mmax := mmax) (orth := orth) (fun _ _ => True) (fun _ _ _ _ _ => trivial)
        (maxit + 1 - (it.i + 1)) ib st it trivial g _ rfl
      generalize fcInner E red mmax orth (maxit + 1 - (it.i + 1)) (it.i + 1) ib st it = R at hin
      obtain ⟨st1, it1, i1, ib1, ex⟩ := R
      obtain ⟨a1, a2, a3, a4⟩ := hin
      dsimp only at *
      cases ex with
      | some e => rfl
      | none =>
        obtain ⟨b1, b2, b3, b4, b5⟩ := a3 rfl
        dsimp only
        rw [b2]
        have := b5 (by omega) hib
        exact ih _ _ it1 (hc _) a1 (by omega)
    · rw [if_neg hcd]; rfl

/-- A pass of the outer loop with `i_bounded` beyond the arrays does nothing; it repeats forever. -/
theorem fcOuter_diverges {E : Env K Rl X} {red : Rl} {maxit : Nat} :
    ∀ fuel i st (it : It Rl), i ≤ maxit → it.converged = false →
      fcOuter E red maxit 0 (fcOrthRestarted E) (fcCycleRestarted 0) fuel i 1 st it = none := by
  intro fuel
  induction fuel with
  | zero => intro i st it h1 h2; unfold fcOuter; rw [if_pos ⟨h1, h2⟩]
  | succ fuel ih =>
    intro i st it h1 h2
    unfold fcOuter
    rw [if_pos ⟨h1, h2⟩]
    have e : fcInner E red 0 (fcOrthRestarted E) (maxit + 1 - i) i 1 st it = (st, it, i, 1, none) := by
      rw [show maxit + 1 - i = (maxit - i) + 1 by omega]
      simp [fcInner]
    rw [e]
    exact ih _ _ _ h1 h2

theorem fc_spec {E : Env K Rl X} {red : Rl} {maxit mmax fuel : Nat} {x b : X} {orth : Nat → X → FcSt K X Rl → FcSt K X Rl}
    {cycle : FcSt K X Rl → Nat × FcSt K X Rl} {e : Exit X Rl} (I : X → X → Rl → Prop) (J : FcSt K X Rl → Rl → Prop)
    (h0 : I (E.pre x b).1 (defect0 E x b) (E.norm (defect0 E x b)))
    (hinit : ∀ d ad dad, J ⟨(E.pre x b).1, defect0 E x b, d, ad, dad, 0, E.norm (defect0 E x b)⟩ (E.norm (defect0 E x b)))
    (hstp : ∀ i ib st d, J st d → J (fcStep E orth i ib st) (fcStep E orth i ib st).def')
    (hcyc : ∀ st d, J st d → J (cycle st).2 d)
    (hJ : ∀ s d, J s d → I s.x s.b d) (he : fcApply E orth cycle red maxit mmax fuel x b = some e) :
    RunSpec E red maxit False I (E.norm (defect0 E x b)) e := by
  unfold fcApply at he
  dsimp only at he
  rw [show E.subOp (E.pre x b).1 (E.pre x b).2 = defect0 E x b from rfl] at he
  cases hs : It.start.step E red 0 (E.norm (defect0 E x b)) with
  | none =>
    rw [hs] at he
    obtain rfl := Option.some.inj he
    exact ⟨Nat.zero_le _, fun h => (by cases h), fun _ => ⟨rfl, Or.inl ⟨step_none hs, rfl⟩⟩, fun _ => ⟨_, h0⟩⟩
  | some it =>
    obtain ⟨g, hi, hd, hcur⟩ := good_start hs
    rw [hs] at he
    dsimp only at he
    by_cases hc : it.converged = true
    · rw [if_pos hc] at he
      obtain rfl := Option.some.inj he
      refine ⟨by dsimp only; omega, fun _ => ⟨g, hd, ⟨_, rfl, ?_⟩, fun h => by dsimp only at h; rw [hc] at h; cases h⟩,
        fun h => absurd rfl h, fun h => absurd rfl h⟩
      rw [hcur]; exact h0
    · rw [if_neg hc, Option.map_eq_some_iff] at he
      obtain ⟨⟨st', it', ex⟩, hr, rfl⟩ := he
      rw [show (1 : Nat) = it.i + 1 by omega] at hr
      obtain ⟨a1, a2, a3, a4, a5⟩ := fcOuter_spec J hstp hcyc fuel 0 _ it (by rw [hcur]; exact hinit _ _ _) g (by omega) _ hr
      cases ex with
      | some e =>
        obtain ⟨b1, b2, d', b3⟩ := a5 (by simp)
        exact ⟨a3, fun h => (by cases h), fun _ => ⟨b1, Or.inr ⟨a1, a2.trans hd, fun h => h.elim, b2⟩⟩, fun _ => ⟨d', hJ _ _ b3⟩⟩
      | none =>
        obtain ⟨b1, b2⟩ := a4 rfl
        exact ⟨a3, fun _ => ⟨a1, a2.trans hd, ⟨_, rfl, hJ _ _ b1⟩, b2⟩, fun h => absurd rfl h, fun h => absurd rfl h⟩

theorem rfcg_run {E : Env K Rl X} {red : Rl} {maxit mmax fuel : Nat} {x b : X} {e : Exit X Rl}
    (he : rfcgApply E red maxit mmax fuel x b = some e) :
    RunSpec E red maxit False (fun _ b d => d = E.norm b) (E.norm (defect0 E x b)) e :=
  fc_spec _ (fun s d => d = E.norm s.b) rfl (fun _ _ _ => rfl) (fun _ _ _ _ _ => rfl) (fun _ _ h => h) (fun _ _ h => h) he

theorem cfcg_run {E : Env K Rl X} {red : Rl} {maxit mmax fuel : Nat} {x b : X} {e : Exit X Rl}
    (he : cfcgApply E red maxit mmax fuel x b = some e) :
    RunSpec E red maxit False (fun _ b d => d = E.norm b) (E.norm (defect0 E x b)) e :=
  fc_spec _ (fun s d => d = E.norm s.b) rfl (fun _ _ _ => rfl) (fun _ _ _ _ _ => rfl) (fun _ _ h => h) (fun _ _ h => h) he

end Fc

end Solver
end Istl
