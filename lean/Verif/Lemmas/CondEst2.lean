import Verif.Lemmas.CondEst

/-! # The state of CG behind its loop -/

namespace Istl
namespace Solver
open Arpack

section Any
variable {K Rl X : Type} [Mul Rl] [Zero Rl]

/-- The state behind the loop, if the states at its head form the sequence `seq`. -/
theorem forIt_end {σ : Type} {E : Env K Rl X} {red : Rl} {advance : Nat → σ → σ} {defect : σ → Rl} {after : Nat → σ → σ}
    (seq : Nat → σ) (hseq : ∀ k, seq (k + 1) = after (k + 1) (advance (k + 1) (seq k))) :
    ∀ n (it : It Rl), it.converged = false →
      let r := forIt E red advance defect after n (it.i + 1) (seq it.i) it
      r.2.2 = none → (r.2.1.converged = true → ∃ k, r.2.1.i = k + 1 ∧ r.1 = advance (k + 1) (seq k)) ∧
        (r.2.1.converged = false → r.1 = seq (it.i + n)) := by
  intro n
  induction n with
  | zero =>
    intro it hc r _
    refine ⟨fun h => ?_, fun _ => rfl⟩
    change it.converged = true at h
    rw [hc] at h; cases h
  | succ n ih =>
    intro it hc r hr
    have hr0 : r = forIt E red advance defect after (n + 1) (it.i + 1) (seq it.i) it := rfl
    simp only [forIt] at hr0
    cases hs : it.step E red (it.i + 1) (defect (advance (it.i + 1) (seq it.i))) with
    | none => rw [hs] at hr0; rw [hr0] at hr; cases hr
    | some it' =>
      rw [hs] at hr0
      dsimp only at hr0
      have hit := (step_eq hs).2
      have hi : it'.i = it.i + 1 := by rw [hit]
      by_cases hcc : it'.converged = true
      · rw [if_pos hcc] at hr0
        rw [hr0]
        exact ⟨fun _ => ⟨it.i, hi, rfl⟩, fun h => (by dsimp only at h; rw [hcc] at h; cases h)⟩
      · have hcf : it'.converged = false := by simpa using hcc
        rw [if_neg hcc, ← hseq, ← hi] at hr0
        have := ih it' hcf
        dsimp only at this
        rw [← hr0] at this
        obtain ⟨a1, a2⟩ := this hr
        refine ⟨a1, fun h => ?_⟩
        rw [a2 h, hi]; congr 1; omega

end Any

section Real
variable {Rl X : Type} [AddCommGroup X] [Module ℝ X] [Mul Rl] [Zero Rl]

/-- The loop and the whole call. -/
theorem cgLoop_apply (E : Env ℝ Rl X) (red : Rl) (maxit : Nat) (x b : X) :
    match cgLoop E red maxit x b with
    | none => (cgApply E red maxit x b).exc ≠ none ∨
        (cgApply E red maxit x b).it.converged = true ∧ (cgApply E red maxit x b).it.i = 0 ∧
          small E red (E.norm (defect0 E x b)) (E.norm (defect0 E x b)) = true
    | some (_, _, some e) => (cgApply E red maxit x b).exc = some e
    | some (s, it, none) => (cgApply E red maxit x b).exc = none ∧ (cgApply E red maxit x b).it = it ∧ (cgApply E red maxit x b).b = s.b ∧
        small E red (E.norm (defect0 E x b)) (E.norm (defect0 E x b)) = false := by
  unfold cgLoop cgApply frame
  dsimp only
  rw [show E.subOp (E.pre x b).1 (E.pre x b).2 = defect0 E x b from rfl]
  cases hs : It.start.step E red 0 (E.norm (defect0 E x b)) with
  | none => dsimp only; exact Or.inl (by simp)
  | some it =>
    dsimp only
    obtain ⟨g, hi, hd0, hcur⟩ := good_start hs
    have hsm := g.conv
    rw [hd0, hcur] at hsm
    by_cases hc : it.converged = true
    · rw [if_pos hc, if_pos hc]
      exact Or.inr ⟨hc, hi, by rw [← hsm]; exact hc⟩
    · rw [if_neg hc, if_neg hc]
      rcases hr : forIt E red (cgAdvance E) (fun s => s.d) (cgAfter E) maxit 1
        (cgInit E (E.pre x b).1 (defect0 E x b) (E.norm (defect0 E x b))) it with ⟨s, it', o⟩
      cases o with
      | some e => rfl
      | none => exact ⟨rfl, rfl, rfl, by rw [← hsm]; simpa using hc⟩

/-- The state behind the loop. -/
theorem cgLoop_state {E : Env ℝ Rl X} {red : Rl} {maxit : Nat} {x b : X} {s : CgSt ℝ X Rl} {it : It Rl}
    (h : cgLoop E red maxit x b = some (s, it, none)) :
    (it.converged = true → ∃ k, it.i = k + 1 ∧
      s = cgAdvance E (k + 1) (cgState E (E.pre x b).1 (defect0 E x b) (E.norm (defect0 E x b)) k)) ∧
    (it.converged = false → s = cgState E (E.pre x b).1 (defect0 E x b) (E.norm (defect0 E x b)) maxit) := by
  unfold cgLoop at h
  dsimp only at h
  rw [show E.subOp (E.pre x b).1 (E.pre x b).2 = defect0 E x b from rfl] at h
  cases hs : It.start.step E red 0 (E.norm (defect0 E x b)) with
  | none => rw [hs] at h; cases h
  | some it0 =>
    rw [hs] at h
    dsimp only at h
    obtain ⟨g, hi, hd0, hcur⟩ := good_start hs
    by_cases hc : it0.converged = true
    · rw [if_pos hc] at h; cases h
    · rw [if_neg hc] at h
      have hcf : it0.converged = false := by simpa using hc
      have key := forIt_end (E := E) (red := red) (advance := cgAdvance E) (defect := fun s => s.d) (after := cgAfter E)
        (cgState E (E.pre x b).1 (defect0 E x b) (E.norm (defect0 E x b))) (fun _ => rfl) maxit it0 hcf
      rw [hi, Nat.zero_add] at key
      injection h with h
      dsimp only at key
      rw [show cgState E (E.pre x b).1 (defect0 E x b) (E.norm (defect0 E x b)) 0 =
        cgInit E (E.pre x b).1 (defect0 E x b) (E.norm (defect0 E x b)) from rfl, h] at key
      have := key rfl
      rw [Nat.zero_add] at this
      exact this

theorem cgState_lengths (E : Env ℝ Rl X) (x b : X) (d : Rl) : ∀ k, (cgState E x b d k).lambdas.length = k ∧ (cgState E x b d k).betas.length = k
  | 0 => ⟨rfl, rfl⟩
  | k + 1 => by
    obtain ⟨h1, h2⟩ := cgState_lengths E x b d k
    refine ⟨?_, ?_⟩
    · change ((cgState E x b d k).lambdas ++ [_]).length = _
      rw [List.length_append, h1]; rfl
    · change ((cgState E x b d k).betas ++ [_]).length = _
      rw [List.length_append, h2]; rfl

/-- A vector that is too short. -/
theorem estMatrix_ub {L B : List ℝ} {n : Nat} (hL : L.length = n) (hB : B.length = n) : estMatrix L B (n + 1) = .ub := by
  have hl : ∀ k, k < n → ∃ a, rd L k = .ok a := fun k hk => ⟨_, rd_lt (by omega)⟩
  have hb : ∀ k, k < n → ∃ a, rd B k = .ok a := fun k hk => ⟨_, rd_lt (by omega)⟩
  have hlow : ∀ k, k ≤ n → ∃ r, estLower L B k = .ok r := by
    intro k hk
    unfold estLower
    split
    · obtain ⟨u, hu⟩ := hb (k - 1) (by omega)
      obtain ⟨v, hv⟩ := hl (k - 1) (by omega)
      rw [hu, Res.ok_bind, hv, Res.ok_bind]; exact ⟨_, rfl⟩
    · exact ⟨_, rfl⟩
  obtain ⟨rows, h1, _⟩ := forRangeM_inv n (fun row (rows : Nat → Row Blk) => do
      let a ← estLower L B row
      let b ← estDiag L B row
      let c ← estUpper L B (n + 1) row
      .ok (upd rows row (a ++ b ++ c))) (fun _ _ => True) (fun _ => []) True.intro (by
    intro k rows hk _
    obtain ⟨r1, e1⟩ := hlow k (by omega)
    obtain ⟨v, hv⟩ := hl k hk
    obtain ⟨u, hu⟩ := hb k hk
    have e2 : ∃ r, estDiag L B k = .ok r := by
      unfold estDiag
      rw [hv, Res.ok_bind]
      split
      · obtain ⟨u', hu'⟩ := hb (k - 1) (by omega)
        obtain ⟨v', hv'⟩ := hl (k - 1) (by omega)
        rw [hu', Res.ok_bind, hv', Res.ok_bind]; exact ⟨_, rfl⟩
      · exact ⟨_, rfl⟩
    obtain ⟨r2, e2⟩ := e2
    have e3 : ∃ r, estUpper L B (n + 1) k = .ok r := by
      unfold estUpper
      split
      · rw [hu, Res.ok_bind, hv, Res.ok_bind]; exact ⟨_, rfl⟩
      · exact ⟨_, rfl⟩
    obtain ⟨r3, e3⟩ := e3
    rw [e1, Res.ok_bind, e2, Res.ok_bind, e3, Res.ok_bind]
    exact ⟨_, rfl, True.intro⟩)
  obtain ⟨r1, e1⟩ := hlow n (le_refl _)
  have e2 : estDiag L B n = .ub := by
    unfold estDiag
    have : rd L n = .ub := by
      unfold rd
      rw [List.getElem?_eq_none (by omega)]
    rw [this]; rfl
  unfold estMatrix
  rw [forRangeM_succ, h1, Res.ok_bind, e1, Res.ok_bind, e2]; rfl

/-! ## The numbers kept -/

variable {E : Env ℝ Rl X} {g : LinearMap.BilinForm ℝ X} {A B : X →ₗ[ℝ] X} {x b : X} {d : Rl}

/-- Step length of pass `k`. -/
noncomputable def lamOf (E : Env ℝ Rl X) (g : LinearMap.BilinForm ℝ X) (A : X →ₗ[ℝ] X) (x b : X) (d : Rl) (k : Nat) : ℝ :=
  (cgState E x b d k).rholast / g (cgState E x b d k).p (A (cgState E x b d k).p)

/-- Factor of the old direction in pass `k`. -/
noncomputable def betOf (E : Env ℝ Rl X) (x b : X) (d : Rl) (k : Nat) : ℝ := (cgState E x b d (k + 1)).rholast / (cgState E x b d k).rholast

theorem vecIs_snoc {L : List ℝ} {n : Nat} {f : Nat → ℝ} {a : ℝ} (h : VecIs L n f) (ha : a = f n) : VecIs (L ++ [a]) (n + 1) f := by
  refine ⟨by rw [List.length_append, h.1]; rfl, fun i hi => ?_⟩
  rcases Nat.lt_succ_iff_lt_or_eq.mp hi with hi | rfl
  · have := h.2 i hi
    rw [rd_ok] at this ⊢
    rw [List.getElem?_append_left (by rw [h.1]; exact hi)]; exact this
  · rw [rd_ok, List.getElem?_append_right (by rw [h.1]), h.1, Nat.sub_self, ha]; rfl

theorem kept_lam (h : Symmetric E g A B) : ∀ k, (∀ j, j < k → E.isZero (cgState E x b d j).d = false) →
    VecIs (cgState E x b d k).lambdas k (lamOf E g A x b d)
  | 0, _ => ⟨rfl, fun i hi => by omega⟩
  | k + 1, hz => by
    have ih := kept_lam h k (fun j hj => hz j (by omega))
    change VecIs ((cgState E x b d k).lambdas ++ [_]) (k + 1) _
    refine vecIs_snoc ih ?_
    rw [hz k (by omega), h.dot, h.op]; simp [lamOf]

theorem kept_bet (h : Symmetric E g A B) : ∀ k, (∀ j, j ≤ k → E.isZero (cgState E x b d j).d = false) →
    VecIs (cgState E x b d k).betas k (betOf E x b d)
  | 0, _ => ⟨rfl, fun i hi => by omega⟩
  | k + 1, hz => by
    have ih := kept_bet h k (fun j hj => hz j (by omega))
    change VecIs ((cgState E x b d k).betas ++ [_]) (k + 1) _
    refine vecIs_snoc ih ?_
    have hz' := hz (k + 1) (le_refl _)
    change E.isZero (cgAdvance E (k + 1) (cgState E x b d k)).d = false at hz'
    rw [hz']; rfl

end Real
end Solver
end Istl
