import Verif.Lemmas.Gmres
import Verif.Lemmas.Solver
import Verif.Spec.Gmres

/-! # Complete runs of the GMRes solvers -/

namespace Istl
namespace Solver

open Finset

variable {𝕜 X : Type} [RCLike 𝕜] [NormedAddCommGroup X] [InnerProductSpace 𝕜 X] [DecidableEq 𝕜] {E : Env 𝕜 ℝ X}

theorem strict_some {stp : Nat → GmSt 𝕜 X ℝ → Option (GmSt 𝕜 X ℝ)} {i : Nat} {st st' : GmSt 𝕜 X ℝ} (h : strict stp i st = some st') :
    stp i st = some st' ∧ st'.H (i + 1) i = 0 := by
  unfold strict at h
  cases hs : stp i st with
  | none => rw [hs] at h; cases h
  | some st1 =>
    rw [hs] at h
    dsimp only at h
    split at h
    · rename_i h0
      obtain rfl := Option.some.inj h
      exact ⟨rfl, h0⟩
    · cases h

theorem gmInner_strict {red : ℝ} {maxit : Nat} {stp : Nat → GmSt 𝕜 X ℝ → Option (GmSt 𝕜 X ℝ)} :
    ∀ n i j st it, (gmInner E red maxit (strict stp) n i j st it).2.2.2.2 = none →
      gmInner E red maxit stp n i j st it = gmInner E red maxit (strict stp) n i j st it := by
  intro n
  induction n with
  | zero => intro i j st it _; rfl
  | succ n ih =>
    intro i j st it h
    simp only [gmInner] at h ⊢
    split
    · rename_i hc
      rw [if_pos hc] at h
      cases hs : strict stp i st with
      | none => rw [hs] at h; cases h
      | some st' =>
        rw [hs] at h
        rw [(strict_some hs).1]
        dsimp only at h ⊢
        cases hst : it.step E red j st'.norm with
        | none => rfl
        | some it' => rw [hst] at h; exact ih _ _ _ _ h
    · rfl

theorem gmOuter_strict {red : ℝ} {maxit m : Nat} {stp : Nat → GmSt 𝕜 X ℝ → Option (GmSt 𝕜 X ℝ)}
    {start restart : GmSt 𝕜 X ℝ → GmSt 𝕜 X ℝ} :
    ∀ fuel j st it r, gmOuter E red maxit m (strict stp) start restart fuel j st it = some r → r.2.2 = none →
      gmOuter E red maxit m stp start restart fuel j st it = some r := by
  intro fuel
  induction fuel with
  | zero => intro j st it r h _; exact h
  | succ fuel ih =>
    intro j st it r h hr
    unfold gmOuter at h ⊢
    split
    · rename_i hc
      rw [if_pos hc] at h
      dsimp only at h ⊢
      cases he : (gmInner E red maxit (strict stp) m 0 j (gmResetS E m (start st)) it).2.2.2.2 with
      | some e =>
        rw [he] at h
        obtain rfl := Option.some.inj h
        cases hr
      | none =>
        rw [gmInner_strict m 0 j _ it he, he]
        rw [he] at h
        exact ih _ _ _ _ h hr
    · rename_i hc
      rw [if_neg hc] at h
      exact h

theorem gmExit_exc (E : Env 𝕜 ℝ X) (r : GmSt 𝕜 X ℝ × It ℝ × Option Exc) : (gmExit E r).exc = none → r.2.2 = none := by
  unfold gmExit
  cases r.2.2 <;> simp

theorem gmApplyWith_strict {red : ℝ} {maxit m fuel : Nat} {x b : X} {e : Exit X ℝ}
    {stp : Nat → GmSt 𝕜 X ℝ → Option (GmSt 𝕜 X ℝ)} (he : gmApplyWith E (strict stp) red maxit m fuel x b = some e)
    (hx : e.exc = none) : gmApplyWith E stp red maxit m fuel x b = some e := by
  unfold gmApplyWith at he ⊢
  dsimp only at he ⊢
  cases hs : It.start.step E red 0 (E.norm (E.prec 0 (E.subOp (E.pre x b).1 (E.pre x b).2))) with
  | none => rw [hs] at he; exact he
  | some it =>
    rw [hs] at he
    dsimp only at he ⊢
    split
    · rename_i hc; rw [if_pos hc] at he; exact he
    · rename_i hc
      rw [if_neg hc, Option.map_eq_some_iff] at he
      obtain ⟨r, hr, rfl⟩ := he
      rw [gmOuter_strict _ _ _ _ _ hr (gmExit_exc E r hx)]; rfl

theorem fgmApplyWith_strict {red : ℝ} {maxit m fuel : Nat} {x b : X} {e : Exit X ℝ}
    {stp : Nat → GmSt 𝕜 X ℝ → Option (GmSt 𝕜 X ℝ)} (he : fgmApplyWith E (strict stp) red maxit m fuel x b = some e)
    (hx : e.exc = none) : fgmApplyWith E stp red maxit m fuel x b = some e := by
  unfold fgmApplyWith at he ⊢
  dsimp only at he ⊢
  cases hs : It.start.step E red 0 (E.norm (E.subOp (E.pre x b).1 (E.pre x b).2)) with
  | none => rw [hs] at he; exact he
  | some it =>
    rw [hs] at he
    dsimp only at he ⊢
    split
    · rename_i hc; rw [if_pos hc] at he; exact he
    · rename_i hc
      rw [if_neg hc, Option.map_eq_some_iff] at he
      obtain ⟨r, hr, rfl⟩ := he
      rw [gmOuter_strict _ _ _ _ _ hr (gmExit_exc E r hx)]; rfl

/-- A defect that does not count as converged is positive. -/
theorem pos_of_not_small {A : X →ₗ[𝕜] X} (hE : GmExact E A) {red d : ℝ} (h : ∃ d0, small E red d0 d = false) : 0 < d := by
  obtain ⟨d0, h⟩ := h
  unfold small at h
  have h2 : E.lt d E.tiny = false := by
    rw [Bool.or_eq_false_iff] at h; exact h.2
  have : ¬ d < E.tiny := fun h' => by rw [(hE.scalars.lt d E.tiny).2 h'] at h2; cases h2
  linarith [hE.tiny, not_lt.1 this]

/-- The first state of a cycle. -/
theorem arn_start {A T : X →ₗ[𝕜] X} (hE : GmExact E A) {m : Nat} {st : GmSt 𝕜 X ℝ} {r0 : X} {f : 𝕜} (hf : f = 1 / (‖r0‖ : 𝕜))
    (hr : r0 ≠ 0) (hv : st.v 0 = f • r0) (hn : st.norm = ‖r0‖) : Arn E T m r0 0 (gmResetS E m st) := by
  have hne : (‖r0‖ : 𝕜) ≠ 0 := by rw [Ne, RCLike.ofReal_eq_zero]; exact norm_ne_zero_iff.2 hr
  refine ⟨fun a b ha hb => ?_, ?_, fun k hk => by omega, fun a ha => ?_, fun b hb => by omega, fun b hb => by omega,
    fun a ha hm => ?_, ?_⟩
  · obtain rfl : a = 0 := by omega
    obtain rfl : b = 0 := by omega
    change inner 𝕜 (st.v 0) (st.v 0) = _
    rw [hv, hf, inner_smul_left, inner_smul_right, inner_self_eq_norm_sq_to_K, if_pos rfl]
    simp only [map_div₀, map_one, RCLike.conj_ofReal]
    field_simp
  · change r0 = (‖r0‖ : 𝕜) • st.v 0
    rw [hv, hf, smul_smul, mul_one_div, div_self hne, one_smul]
  · obtain rfl : a = 0 := by omega
    change E.ofReal st.norm = _
    rw [hE.scalars.ofReal, hn]; rfl
  · change (if a = 0 then E.ofReal st.norm else if a < m + 1 then 0 else st.s a) = 0
    rw [if_neg (by omega), if_pos (by omega)]
  · change st.norm = ‖E.ofReal st.norm‖
    rw [hE.scalars.ofReal, hn, RCLike.norm_ofReal, abs_norm]

theorem lt_false {A : X →ₗ[𝕜] X} (hE : GmExact E A) {h : ℝ} (hlt : ¬ E.lt (E.abs (h : 𝕜)) E.eps = true) : h ≠ 0 := by
  rintro rfl
  apply hlt
  rw [hE.scalars.lt, hE.scalars.abs, RCLike.ofReal_zero, norm_zero]
  exact hE.eps

/-- One strict pass of GMRes. -/
theorem gm_arn {A B : X →ₗ[𝕜] X} (hE : GmExact E A) (hB : ∀ k y, E.prec k y = B y) {m i : Nat} {r0 : X} {st st' : GmSt 𝕜 X ℝ}
    (h : Arn E (B ∘ₗ A) m r0 i st) (hyv : st.y = st.v) (him : i + 1 ≤ m) (hn : 0 < st.norm)
    (hs : strict (gmStep E) i st = some st') :
    Arn E (B ∘ₗ A) m r0 (i + 1) st' ∧ st'.y = st'.v ∧ st'.x = st.x ∧ st'.b = st.b := by
  obtain ⟨hs, hclear⟩ := strict_some hs
  unfold gmStep at hs
  dsimp only at hs
  rw [hE.norm, hE.scalars.ofReal] at hs
  split at hs
  · cases hs
  · rename_i hlt
    have hz : E.isZero st.norm = false := by
      rw [← Bool.not_eq_true, hE.isZero]; exact hn.ne'
    rw [hz, if_neg (by simp)] at hs
    obtain rfl := Option.some.inj hs
    refine ⟨?_, rfl, rfl, rfl⟩
    refine Arn.step (g := gramSchmidt E st.v i (E.prec st.calls (E.op (st.v i))) (fun a => st.H a i)) (col0 := fun a => st.H a i)
      hE.scalars hE.dot h him _ _ (fun b hb => ?_) ?_ (norm_ne_zero_iff.1 (lt_false hE hlt)) _ _ rfl rfl hclear
    · rw [hyv, upd_ne _ _ (by omega)]
    · rw [upd_ne _ _ (by omega), hB, hE.op]; rfl

/-- One strict pass of flexible GMRes. -/
theorem fgm_arn {A : X →ₗ[𝕜] X} (hE : GmExact E A) {m i : Nat} {r0 : X} {st st' : GmSt 𝕜 X ℝ}
    (h : Arn E A m r0 i st) (him : i + 1 ≤ m) (hs : strict (fgmStep E) i st = some st') :
    Arn E A m r0 (i + 1) st' ∧ st'.x = st.x ∧ st'.b = st.b := by
  obtain ⟨hs, hclear⟩ := strict_some hs
  unfold fgmStep at hs
  dsimp only at hs
  rw [hE.norm, hE.scalars.ofReal] at hs
  split at hs
  · cases hs
  · rename_i hlt
    obtain rfl := Option.some.inj hs
    refine ⟨?_, rfl, rfl⟩
    refine Arn.step (g := gramSchmidt E st.v i (E.op (E.prec st.calls (st.v i))) (fun a => st.H a i)) (col0 := fun a => st.H a i)
      hE.scalars hE.dot h him _ _ (fun b hb => ?_) ?_ (norm_ne_zero_iff.1 (lt_false hE hlt)) _ _ rfl rfl hclear
    · rw [upd_ne _ _ (by omega)]
    · rw [upd_same, hE.op]

end Solver
end Istl
