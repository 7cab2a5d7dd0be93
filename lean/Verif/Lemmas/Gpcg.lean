import Verif.Spec.Gpcg
import Verif.Lemmas.Adjoint
import Verif.Lemmas.Solver
import Verif.Lemmas.SpMat
import Mathlib.LinearAlgebra.Span.Basic
import Mathlib.Tactic.Ring
import Mathlib.Tactic.LinearCombination
import Mathlib.Tactic.FieldSimp

/-! # Generalized PCG: conjugate directions, orthogonal defects -/

namespace Istl
namespace Solver
variable {K Rl X : Type} [Field K] [LinearOrder K] [IsStrictOrderedRing K] [AddCommGroup X] [Module K X] [Zero Rl] [Mul Rl]
variable {B : X → X → K} {W : Submodule K X} {A : Module.End K X} {E : Env K Rl X}

/-- The invariant of the run: after step `k + 1`. -/
structure GpInv (B : X → X → K) (W : Submodule K X) (A : Module.End K X) (x0 b0 : X) (k : Nat) (st : GpSt K X Rl) : Prop where
  mem : ∀ j ≤ k, st.p j ∈ W
  pp : ∀ j ≤ k, st.pp j = B (A (st.p j)) (st.p j)
  conj : ∀ i j, i < j → j ≤ k → B (A (st.p i)) (st.p j) = 0
  orth : ∀ j ≤ k, B st.b (st.p j) = 0
  defect : st.b = b0 - A (st.x - x0)
  span : st.x - x0 ∈ Submodule.span K (st.p '' {j | j ≤ k})

theorem SpdProblem.zero_of (H : SpdProblem B W A E) {x : X} (hx : x ∈ W) (h : B (A x) x = 0) : x = 0 := by
  by_contra hne
  exact (H.pos x hx hne).ne' h

theorem span_le {p : Nat → X} {k : Nat} (hp : ∀ j ≤ k, p j ∈ W) : Submodule.span K (p '' {j | j ≤ k}) ≤ W :=
  Submodule.span_le.mpr (by rintro _ ⟨j, hj, rfl⟩; exact hp j hj)

theorem GpInv.bmem (H : SpdProblem B W A E) {x0 b0 : X} (hb : b0 ∈ W) {k : Nat} {st : GpSt K X Rl} (I : GpInv B W A x0 b0 k st) :
    st.b ∈ W := by
  rw [I.defect]
  exact W.sub_mem hb (H.mem _ (span_le I.mem I.span))

/-- A vector orthogonal to all directions is orthogonal to their span. -/
theorem orth_span (hB : ScalarProd B) {S : Set X} {v : X} (h : ∀ y ∈ S, B v y = 0) : ∀ y ∈ Submodule.span K S, B v y = 0 := by
  intro y hy
  induction hy using Submodule.span_induction with
  | mem y hy => exact h y hy
  | zero => rw [hB.symm, hB.zero]
  | add y z _ _ h1 h2 => rw [hB.add', h1, h2, add_zero]
  | smul c y _ h1 => rw [hB.smul', h1, mul_zero]

/-- The new direction. -/
theorem gpDirection_p (H : SpdProblem B W A E) (i k : Nat) (st : GpSt K X Rl)
    (hmem : ∀ j < k, st.p j ∈ W) (hb : st.b ∈ W) (hpp : ∀ j < k, st.pp j = B (A (st.p j)) (st.p j))
    (hconj : ∀ i j, i < j → j < k → B (A (st.p i)) (st.p j) = 0) :
    ∃ q ∈ Submodule.span K (st.p '' {j | j < k}), (gpDirection E i k st).p k = E.prec i st.b + q ∧
      (gpDirection E i k st).p k ∈ W ∧ ∀ j < k, B (A (st.p j)) ((gpDirection E i k st).p k) = 0 := by
  set r := E.prec i st.b with hr
  let f : Nat → X → X := fun j pi => pi + (-(E.dot (E.op r) (st.p j) / st.pp j)) • st.p j
  have key : ∀ n ≤ k, (∃ q ∈ Submodule.span K (st.p '' {j | j < n}), forRange n f r = r + q) ∧
      forRange n f r ∈ W ∧ (∀ j < n, B (A (st.p j)) (forRange n f r) = 0) ∧
      ∀ j, n ≤ j → j < k → B (A (st.p j)) (forRange n f r) = B (A (st.p j)) r := by
    intro n
    induction n with
    | zero =>
      intro _
      refine ⟨⟨0, Submodule.zero_mem _, by simp [forRange_zero]⟩, ?_, fun j hj => absurd hj (by omega), fun j _ _ => rfl⟩
      rw [forRange_zero]
      exact H.prec _ _ hb
    | succ n ih =>
      intro hn
      obtain ⟨⟨q, hq, e⟩, m, z, nz⟩ := ih (by omega)
      rw [forRange_succ]
      refine ⟨⟨q + (-(E.dot (E.op r) (st.p n) / st.pp n)) • st.p n, ?_, ?_⟩, ?_, ?_, ?_⟩
      · refine Submodule.add_mem _ (Submodule.span_mono (Set.image_mono fun j hj => Nat.lt_succ_of_lt hj) hq) ?_
        exact Submodule.smul_mem _ _ (Submodule.subset_span ⟨n, Nat.lt_succ_self n, rfl⟩)
      · show forRange n f r + _ = _
        rw [e, add_assoc]
      · exact W.add_mem m (W.smul_mem _ (hmem n (by omega)))
      · intro j hj
        show B (A (st.p j)) (forRange n f r + _) = 0
        rw [H.prod.add', H.prod.smul']
        by_cases hjn : j = n
        · subst hjn
          rw [nz j (le_refl _) (by omega), H.dot, H.op, hpp j (by omega)]
          have e2 : B (A r) (st.p j) = B (A (st.p j)) r := by rw [H.symm, H.prod.symm]
          rw [e2]
          by_cases h0 : B (A (st.p j)) (st.p j) = 0
          · rw [h0, H.zero_of (hmem j (by omega)) h0, map_zero, H.prod.zero]; simp
          · field_simp
            ring
        · rw [z j (by omega), hconj j n (by omega) (by omega)]; ring
      · intro j h1 h2
        show B (A (st.p j)) (forRange n f r + _) = _
        rw [H.prod.add', H.prod.smul', nz j (by omega) h2]
        have : B (A (st.p j)) (st.p n) = 0 := by
          rw [H.symm, H.prod.symm]
          exact hconj n j (by omega) h2
        rw [this]; ring
  obtain ⟨⟨q, hq, e⟩, m, z, _⟩ := key k (le_refl _)
  have ep : (gpDirection E i k st).p k = forRange k f r := by simp [gpDirection, upd, f, r]
  rw [ep]
  exact ⟨q, hq, e, m, z⟩

theorem gpDirection_other (i k : Nat) (st : GpSt K X Rl) (j : Nat) (hj : j ≠ k) : (gpDirection E i k st).p j = st.p j := by
  simp [gpDirection, upd, hj]

/-- Minimising along a direction conjugate to the previous ones. -/
theorem gpMinimise_inv (H : SpdProblem B W A E) (k : Nat) (st : GpSt K X Rl) (x0 b0 : X) (hmem : ∀ j ≤ k, st.p j ∈ W)
    (hpp : ∀ j < k, st.pp j = B (A (st.p j)) (st.p j)) (hconj : ∀ i j, i < j → j ≤ k → B (A (st.p i)) (st.p j) = 0)
    (horth : ∀ j < k, B st.b (st.p j) = 0) (hd : st.b = b0 - A (st.x - x0))
    (hs : st.x - x0 ∈ Submodule.span K (st.p '' {j | j ≤ k})) : GpInv B W A x0 b0 k (gpMinimise E k st) := by
  have hB := H.prod
  refine ⟨hmem, ?_, hconj, ?_, ?_, ?_⟩
  · intro j hj
    simp only [gpMinimise, upd, H.dot, H.op]
    by_cases h : j = k
    · subst h; simp only [if_true]; rw [hB.symm]
    · rw [if_neg h]; exact hpp j (by omega)
  · intro j hj
    simp only [gpMinimise, H.dot, H.op]
    rw [hB.add, hB.smul]
    by_cases h : j = k
    · subst h
      rw [hB.symm (st.p j) (A _), hB.symm (st.p j) st.b]
      by_cases h0 : B (A (st.p j)) (st.p j) = 0
      · rw [H.zero_of (hmem j (le_refl _)) h0, map_zero, hB.zero, hB.symm, hB.zero]; simp
      · field_simp
        ring
    · rw [horth j (by omega)]
      have : B (A (st.p k)) (st.p j) = 0 := by
        rw [H.symm, hB.symm]
        exact hconj j k (by omega) (le_refl _)
      rw [this]; ring
  · simp only [gpMinimise, H.dot, H.op]
    rw [hd, show st.x + (B (st.p k) (b0 - A (st.x - x0)) / B (st.p k) (A (st.p k))) • st.p k - x0 =
      (st.x - x0) + (B (st.p k) (b0 - A (st.x - x0)) / B (st.p k) (A (st.p k))) • st.p k by abel, map_add, map_smul, neg_smul]
    abel
  · show st.x + _ • st.p k - x0 ∈ _
    rw [add_sub_right_comm]
    exact Submodule.add_mem _ hs (Submodule.smul_mem _ _ (Submodule.subset_span ⟨k, le_refl k, rfl⟩))

theorem gpMinimise_p (k : Nat) (st : GpSt K X Rl) : (gpMinimise E k st).p = st.p := rfl

theorem gpState_inv (H : SpdProblem B W A E) (x0 b0 : X) (hb : b0 ∈ W) (d : Rl) (k : Nat) :
    GpInv B W A x0 b0 k (gpState E x0 b0 d k) := by
  induction k with
  | zero =>
    refine gpMinimise_inv H 0 _ x0 b0 ?_ (fun j hj => absurd hj (by omega)) (fun i j h1 h2 => absurd h1 (by omega))
      (fun j hj => absurd hj (by omega)) ?_ ?_
    · intro j _; exact H.prec 0 b0 hb
    · show b0 = b0 - A (x0 - x0)
      rw [sub_self, map_zero, sub_zero]
    · show x0 - x0 ∈ _
      rw [sub_self]; exact Submodule.zero_mem _
  | succ k ih =>
    set st := gpState E x0 b0 d k with hst
    have hlt : ∀ j, j < k + 1 → j ≤ k := fun j h => by omega
    obtain ⟨q, hq, e, m, z⟩ := gpDirection_p H (k + 1) (k + 1) st (fun j hj => ih.mem j (hlt j hj)) (ih.bmem H hb)
      (fun j hj => ih.pp j (hlt j hj)) (fun i j h1 h2 => ih.conj i j h1 (hlt j h2))
    have ho : ∀ j, j ≤ k → (gpDirection E (k + 1) (k + 1) st).p j = st.p j := fun j hj => gpDirection_other _ _ _ _ (by omega)
    refine gpMinimise_inv H (k + 1) _ x0 b0 ?_ ?_ ?_ ?_ ih.defect ?_
    · intro j hj
      by_cases h : j = k + 1
      · subst h; exact m
      · rw [ho j (by omega)]; exact ih.mem j (by omega)
    · intro j hj
      rw [ho j (by omega)]
      exact ih.pp j (by omega)
    · intro i j h1 h2
      by_cases h : j = k + 1
      · subst h
        rw [ho i (by omega)]
        exact z i h1
      · rw [ho i (by omega), ho j (by omega)]
        exact ih.conj i j h1 (by omega)
    · intro j hj
      rw [ho j (by omega)]
      exact ih.orth j (by omega)
    · refine Submodule.span_mono ?_ ih.span
      rintro _ ⟨j, hj, rfl⟩
      exact ⟨j, Nat.le_succ_of_le hj, ho j hj⟩

/-- Directions, once computed, stay. -/
theorem gpState_p (x0 b0 : X) (d : Rl) (k j : Nat) (hj : j ≤ k) : (gpState E x0 b0 d k).p j = (gpState E x0 b0 d j).p j := by
  induction k with
  | zero => obtain rfl : j = 0 := by omega
            rfl
  | succ k ih =>
    by_cases h : j = k + 1
    · rw [h]
    · rw [← ih (by omega)]
      exact gpDirection_other (k + 1) (k + 1) _ j h

/-- The functional of the step. -/
theorem quad_add (hB : ScalarProd B) (hs : Adjoint B A A) (b x y : X) :
    quad B A b (x + y) = quad B A b x + B (A y) y - 2 * B (b - A x) y := by
  unfold quad
  have : B (A y) x = B (A x) y := by rw [hs, hB.symm]
  rw [map_add, hB.add, hB.add', hB.add', hB.add', hB.sub, this]
  ring

/-- One minimisation, whatever the direction, does not increase the functional; it lowers it if the direction is not orthogonal to the defect. -/
theorem gpMinimise_quad (H : SpdProblem B W A E) (k : Nat) (st : GpSt K X Rl) (c : X) (hp : st.p k ∈ W) (hd : st.b = c - A st.x) :
    quad B A c (gpMinimise E k st).x ≤ quad B A c st.x ∧
    (B (st.p k) st.b ≠ 0 → quad B A c (gpMinimise E k st).x < quad B A c st.x) ∧
    (gpMinimise E k st).b = c - A (gpMinimise E k st).x := by
  have hB := H.prod
  have e : quad B A c (gpMinimise E k st).x =
      quad B A c st.x - B (st.p k) st.b * B (st.p k) st.b / B (A (st.p k)) (st.p k) := by
    simp only [gpMinimise, H.dot, H.op]
    rw [quad_add hB H.symm, map_smul, hB.smul, hB.smul', hB.smul', ← hd, hB.symm st.b, hB.symm (st.p k) (A (st.p k))]
    by_cases h0 : B (A (st.p k)) (st.p k) = 0
    · rw [h0]; simp
    · field_simp
      ring
  have hpos : 0 ≤ B (A (st.p k)) (st.p k) := by
    by_cases h0 : st.p k = 0
    · rw [h0, map_zero, hB.zero]
    · exact (H.pos _ hp h0).le
  refine ⟨?_, ?_, ?_⟩
  · rw [e]
    have := div_nonneg (mul_self_nonneg (B (st.p k) st.b)) hpos
    linarith
  · intro hne
    have h0 : st.p k ≠ 0 := by
      intro h0; rw [h0, hB.zero] at hne; exact hne rfl
    rw [e]
    have := div_pos (mul_self_pos.mpr hne) (H.pos _ hp h0)
    linarith
  · simp only [gpMinimise, H.dot, H.op]
    rw [hd, map_add, map_smul, neg_smul]
    abel

end Solver
end Istl

namespace Istl
namespace Solver
section Run
variable {K Rl X : Type} [Field K] [AddCommGroup X] [Module K X] [Zero Rl] [Mul Rl]
variable {E : Env K Rl X}

theorem step_fields {red : Rl} {it it' : It Rl} {i : Nat} {d : Rl} (h : it.step E red i d = some it') : it'.i = i ∧ it'.cur = d := by
  unfold It.step at h
  split at h
  · obtain rfl := Option.some.inj h
    exact ⟨rfl, rfl⟩
  · cases h

theorem gpInner_state (red : Rl) (x b : X) (d : Rl) : ∀ (n k : Nat) (it : It Rl), it.i = k + 1 →
    (gpInner E red n (k + 1) (k + 1) (gpState E x b d k) it).2.2.2 = none →
      (gpInner E red n (k + 1) (k + 1) (gpState E x b d k) it).1 = gpState E x b d (k + n) ∧
      (gpInner E red n (k + 1) (k + 1) (gpState E x b d k) it).2.1.i = k + 1 + n ∧
      (gpInner E red n (k + 1) (k + 1) (gpState E x b d k) it).2.2.1 = k + 1 + n := by
  intro n
  induction n with
  | zero => intro k it hi _; exact ⟨rfl, hi, rfl⟩
  | succ n ih =>
    intro k it hi hn
    simp only [gpInner] at hn ⊢
    change (match it.step E red (k + 1 + 1) (gpState E x b d (k + 1)).d with
      | none => (gpState E x b d (k + 1), it, k + 1 + 1, some Exc.solverAbort)
      | some it => gpInner E red n (k + 1 + 1) (k + 1 + 1) (gpState E x b d (k + 1)) it).2.2.2 = none at hn
    change (match it.step E red (k + 1 + 1) (gpState E x b d (k + 1)).d with
      | none => (gpState E x b d (k + 1), it, k + 1 + 1, some Exc.solverAbort)
      | some it => gpInner E red n (k + 1 + 1) (k + 1 + 1) (gpState E x b d (k + 1)) it).1 = _ ∧
      (match it.step E red (k + 1 + 1) (gpState E x b d (k + 1)).d with
      | none => (gpState E x b d (k + 1), it, k + 1 + 1, some Exc.solverAbort)
      | some it => gpInner E red n (k + 1 + 1) (k + 1 + 1) (gpState E x b d (k + 1)) it).2.1.i = _ ∧
      (match it.step E red (k + 1 + 1) (gpState E x b d (k + 1)).d with
      | none => (gpState E x b d (k + 1), it, k + 1 + 1, some Exc.solverAbort)
      | some it => gpInner E red n (k + 1 + 1) (k + 1 + 1) (gpState E x b d (k + 1)) it).2.2.1 = _
    cases hs : it.step E red (k + 1 + 1) (gpState E x b d (k + 1)).d with
    | none => rw [hs] at hn; cases hn
    | some it' =>
      rw [hs] at hn
      dsimp only at hn ⊢
      obtain ⟨a, b', c⟩ := ih (k + 1) it' (step_fields hs).1 hn
      exact ⟨by rw [a, Nat.add_right_comm]; rfl, by rw [b']; omega, by rw [c]; omega⟩

/-- A run without restart. -/
theorem gp_norestart {red : Rl} {maxit restart fuel : Nat} {x b : X} {e : Exit X Rl} (hm : maxit ≤ restart)
    (he : gpApply E red maxit restart fuel x b = some e) (hx : e.exc = none) :
    (e.it.i = 0 ∧ e.it.converged = true ∧ e.x = E.post (E.pre x b).1 ∧ e.b = defect0 E x b) ∨
    ∃ k, e.it.i = k + 1 ∧ e.x = E.post (gpState E (E.pre x b).1 (defect0 E x b) (E.norm (defect0 E x b)) k).x ∧
      e.b = (gpState E (E.pre x b).1 (defect0 E x b) (E.norm (defect0 E x b)) k).b ∧
      (e.it.converged = false → k + 1 = max 1 maxit) ∧ k + 1 ≤ max 1 maxit := by
  unfold gpApply at he
  dsimp only at he
  rw [show E.subOp (E.pre x b).1 (E.pre x b).2 = defect0 E x b from rfl] at he
  cases hs : It.start.step E red 0 (E.norm (defect0 E x b)) with
  | none =>
    rw [hs] at he
    obtain rfl := Option.some.inj he
    cases hx
  | some it =>
    rw [hs] at he
    dsimp only at he
    by_cases hc : it.converged = true
    · rw [if_pos hc] at he
      obtain rfl := Option.some.inj he
      exact .inl ⟨(step_fields hs).1, hc, rfl, rfl⟩
    · rw [if_neg hc] at he
      right
      change (match it.step E red 1 (gpState E (E.pre x b).1 (defect0 E x b) (E.norm (defect0 E x b)) 0).d with
        | none => _
        | some it => _) = some e at he
      generalize (E.pre x b).1 = x0 at he ⊢
      generalize defect0 E x b = b0 at he ⊢
      generalize E.norm b0 = d0 at he ⊢
      change (match it.step E red 1 (gpState E x0 b0 d0 0).d with
        | none => some { x := (gpState E x0 b0 d0 0).x, b := (gpState E x0 b0 d0 0).b, it := it, exc := some .solverAbort }
        | some it =>
          if it.converged = true then some { x := E.post (gpState E x0 b0 d0 0).x, b := (gpState E x0 b0 d0 0).b, it := it, exc := none }
          else (gpOuter E red maxit restart fuel 1 (gpState E x0 b0 d0 0) it).map fun r =>
            match r.2.2 with
            | some e => { x := r.1.x, b := r.1.b, it := r.2.1, exc := some e }
            | none => { x := E.post r.1.x, b := r.1.b, it := r.2.1, exc := none }) = some e at he
      cases hs1 : it.step E red 1 (gpState E x0 b0 d0 0).d with
      | none =>
        rw [hs1] at he
        obtain rfl := Option.some.inj he
        cases hx
      | some it1 =>
        rw [hs1] at he
        dsimp only at he
        have hi1 := (step_fields hs1).1
        by_cases hc1 : it1.converged = true
        · rw [if_pos hc1] at he
          obtain rfl := Option.some.inj he
          refine ⟨0, hi1, rfl, rfl, fun h => ?_, by omega⟩
          simp only at h; rw [hc1] at h; cases h
        · rw [if_neg hc1, Option.map_eq_some_iff] at he
          obtain ⟨⟨st', it', ex⟩, hr, rfl⟩ := he
          by_cases hlt : 1 < maxit
          · obtain ⟨f, rfl⟩ : ∃ f, fuel = f + 1 := by
              cases fuel with
              | zero => rw [gpOuter, if_pos hlt] at hr; cases hr
              | succ f => exact ⟨f, rfl⟩
            rw [gpOuter, if_pos hlt] at hr
            have hmin : min restart (maxit - 1 + 1) = maxit := by omega
            simp only [hmin] at hr
            have key := gpInner_state (E := E) red x0 b0 d0 (maxit - 1) 0 it1 hi1
            simp only [Nat.zero_add] at key
            cases hex : (gpInner E red (maxit - 1) 1 1 (gpState E x0 b0 d0 0) it1).2.2.2 with
            | some e1 =>
              rw [hex] at hr
              simp only [Option.some.injEq, Prod.mk.injEq] at hr
              obtain ⟨_, _, rfl⟩ := hr
              cases hx
            | none =>
              obtain ⟨k1, k2, k3⟩ := key hex
              rw [hex] at hr
              dsimp only at hr
              have hmm : 1 + (maxit - 1) = maxit := by omega
              rw [hmm] at k2 k3
              by_cases hcv : (gpInner E red (maxit - 1) 1 1 (gpState E x0 b0 d0 0) it1).2.1.converged = true
              · rw [if_pos hcv] at hr
                simp only [Option.some.injEq, Prod.mk.injEq] at hr
                obtain ⟨rfl, rfl, rfl⟩ := hr
                refine ⟨maxit - 1, ?_, ?_, ?_, fun h => ?_, by omega⟩
                · simp only; omega
                · simp only [k1]
                · simp only [k1]
                · omega
              · rw [if_neg hcv, k3] at hr
                have hdone : ∀ (f : Nat) (st : GpSt K X Rl) (it : It Rl),
                    gpOuter E red maxit restart f maxit st it = some (st, it, none) := by
                  intro f st it
                  cases f <;> rw [gpOuter, if_neg (lt_irrefl _)]
                rw [hdone] at hr
                simp only [Option.some.injEq, Prod.mk.injEq] at hr
                obtain ⟨rfl, rfl, rfl⟩ := hr
                refine ⟨maxit - 1, ?_, ?_, ?_, fun h => ?_, by omega⟩
                · simp only; omega
                · dsimp only
                  split <;> simp only [k1]
                · dsimp only
                  split <;> simp only [k1]
                · omega
          · have hdone : ∀ (f : Nat), gpOuter E red maxit restart f 1 (gpState E x0 b0 d0 0) it1 =
                some (gpState E x0 b0 d0 0, it1, none) := by
              intro f
              cases f <;> rw [gpOuter, if_neg hlt]
            rw [hdone] at hr
            simp only [Option.some.injEq, Prod.mk.injEq] at hr
            obtain ⟨rfl, rfl, rfl⟩ := hr
            exact ⟨0, hi1, rfl, rfl, fun _ => by omega, by omega⟩

end Run
end Solver
end Istl
