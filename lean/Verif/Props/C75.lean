import Verif.Lemmas.Bicgstab
import Verif.Lemmas.Solver
import Verif.Spec.SolverDemo
import Mathlib.LinearAlgebra.BilinearForm.Basic
import Mathlib.Tactic.Positivity
import Mathlib.Tactic.Linarith

/-!
# C75: BiCGSTAB is the stabilised biconjugate gradient method, and is exact in `dim` steps unless it reports a breakdown

Exact arithmetic over a field. `A` is the operator, `B` the preconditioner, `φ w` the functional `(w, ·)`; the method works with `A B`.
-/

namespace Istl
namespace Solver

variable {K Rl X : Type} [Field K] [AddCommGroup X] [Module K X] [Mul Rl] [Zero Rl]

/-- **The residual after `k` passes** is the stabilising polynomial with the parameters `omega` chosen so far, applied to the residual of the
biconjugate gradient method. -/
theorem C75_residual (E : Env K Rl X) (φ : X → X →ₗ[K] K) (A B : X →ₗ[K] X) (h : BiExact E φ A B) (x r0 : X) (d : Rl)
    {k : Nat} {s : BiSt K X Rl} {ws : List K} (hr : BiReach E (biStart x r0 d) k s ws) :
    ∃ R, IsBicgResidual (A ∘ₗ B) r0 (φ r0) k R ∧ s.r = stab (A ∘ₗ B) ws R := by
  obtain ⟨R, P, I⟩ := bi_inv h x d hr
  exact ⟨R k, I.res k (le_refl _), I.r⟩

/-- **After the first half of pass `k + 1`** the residual is the same polynomial applied to the next residual of that method; in
particular it is orthogonal to the shadow residual. -/
theorem C75_half (E : Env K Rl X) (φ : X → X →ₗ[K] K) (A B : X →ₗ[K] X) (h : BiExact E φ A B) (x r0 : X) (d : Rl)
    {k : Nat} {s s' : BiSt K X Rl} {ws : List K} {rho : K} (hr : BiReach E (biStart x r0 d) k s ws) (hz : E.isZero s.norm = false)
    (hf : biFirst E k s = some (s', rho)) :
    (∃ R, IsBicgResidual (A ∘ₗ B) r0 (φ r0) (k + 1) R ∧ s'.r = stab (A ∘ₗ B) ws R) ∧ φ r0 s'.r = 0 := by
  obtain ⟨R, P, I⟩ := bi_inv h x d hr
  obtain ⟨R', P', e, -, I'⟩ := bi_pass h I hz hf
  refine ⟨⟨R' (k + 1), I'.res _ (le_refl _), e⟩, ?_⟩
  obtain ⟨-, -, f3, -, -, f6, f7, f8, -⟩ := biFirst_some h hf hz
  rw [I.rt] at f3 f6 f7
  rw [f8, map_sub, map_smul, smul_eq_mul, f7, f3, div_mul_cancel₀ _ f6, sub_self]

/-- **The second half step minimises** the residual norm along the preconditioned residual: for a scalar product, no other parameter gives
a smaller residual. -/
theorem C75_minimises [LinearOrder K] [IsStrictOrderedRing K] (E : Env K Rl X) (g : LinearMap.BilinForm K X) (A B : X →ₗ[K] X)
    (h : BiExact E (fun w => g w) A B) (comm : ∀ u v, g u v = g v u) (pos : ∀ u, u ≠ 0 → 0 < g u u) (k : Nat) (s : BiSt K X Rl) (rho : K)
    (hz : E.isZero s.norm = false) (w : K) :
    g (biSecond E k s rho).r (biSecond E k s rho).r ≤ g (s.r - w • A (B s.r)) (s.r - w • A (B s.r)) := by
  have e : (biSecond E k s rho).r = s.r - (g (A (B s.r)) s.r / g (A (B s.r)) (A (B s.r))) • A (B s.r) := by
    change s.r + (-(if E.isZero s.norm = true then 0 else E.dot (E.op (E.prec _ s.r)) s.r / E.dot (E.op (E.prec _ s.r)) (E.op (E.prec _ s.r)) : K)) •
      E.op (E.prec _ s.r) = _
    rw [if_neg (by rw [hz]; decide), h.op, h.prec, h.dot, h.dot, neg_smul, ← sub_eq_add_neg]
  rw [e]
  generalize A (B s.r) = t
  by_cases ht : t = 0
  · rw [ht, smul_zero, smul_zero]
  · have hp := pos t ht
    have q : ∀ c : K, g (s.r - c • t) (s.r - c • t) = g s.r s.r - 2 * c * g t s.r + c ^ 2 * g t t := by
      intro c
      simp only [map_sub, map_smul, LinearMap.sub_apply, LinearMap.smul_apply, smul_eq_mul, comm s.r t]
      ring
    rw [q, q]
    have : (g s.r s.r - 2 * w * g t s.r + w ^ 2 * g t t) - (g s.r s.r - 2 * (g t s.r / g t t) * g t s.r + (g t s.r / g t t) ^ 2 * g t t) =
        g t t * (w - g t s.r / g t t) ^ 2 := by
      field_simp
      ring
    have nn : 0 ≤ g t t * (w - g t s.r / g t t) ^ 2 := mul_nonneg hp.le (sq_nonneg _)
    linarith

/-- What a normal end of the loop means. -/
theorem bi_loop_end (E : Env K Rl X) (φ : X → X →ₗ[K] K) (A B : X →ₗ[K] X) (h : BiExact E φ A B) (red : Rl)
    (hs : ∀ d0, small E red d0 (E.norm 0) = true) (s0 : BiSt K X Rl) : ∀ (n k : Nat) (s : BiSt K X Rl) (ws : List K) (it : It Rl),
    BiReach E s0 k s ws → s.norm = E.norm s.r → s.r ≠ 0 → it.i = 2 * k → it.converged = false → (biLoop E red n k s it).2.2 = none →
    let o := biLoop E red n k s it
    (∃ k' s' ws', BiReach E s0 k' s' ws' ∧ k' ≤ k + n ∧ (∀ j, j < k' → k ≤ j → ∃ t vs t' rho, BiReach E s0 j t vs ∧ t.r ≠ 0 ∧
        E.isZero t.norm = false ∧ biFirst E j t = some (t', rho)) ∧
      ((o.2.1.i = 2 * k' ∧ o.1 = s' ∧ (o.2.1.converged = false → k' = k + n)) ∨
       (s'.r ≠ 0 ∧ E.isZero s'.norm = false ∧ k' < k + n ∧ ∃ rho, biFirst E k' s' = some (o.1, rho) ∧ o.2.1.i = 2 * k' + 1 ∧ o.2.1.converged = true))) := by
  intro n
  induction n with
  | zero =>
    intro k s ws it hr hn hne hi hc _
    exact ⟨k, s, ws, hr, by omega, fun j h1 h2 => absurd h1 (by omega), Or.inl ⟨hi, rfl, fun _ => rfl⟩⟩
  | succ n ih =>
    intro k s ws it hr hn hne hi hc hx o
    have hz : E.isZero s.norm = false := by
      cases hb : E.isZero s.norm with
      | false => rfl
      | true => rw [hn] at hb; exact absurd ((h.isZero _).1 hb) hne
    have ho : o = biLoop E red (n + 1) k s it := rfl
    rw [biLoop] at ho hx
    cases hf : biFirst E k s with
    | none => rw [hf] at hx; cases hx
    | some sr =>
      obtain ⟨s', rho⟩ := sr
      rw [hf] at ho hx
      dsimp only at ho hx
      have hn' : s'.norm = E.norm s'.r := (biFirst_some h hf hz).2.2.2.2.2.2.2.2.2.1
      cases hs1 : it.step E red (2 * k + 1) s'.norm with
      | none => rw [hs1] at hx; cases hx
      | some it1 =>
        rw [hs1] at ho hx
        dsimp only at ho hx
        obtain ⟨-, e1⟩ := step_eq hs1
        by_cases hc1 : it1.converged = true
        · rw [if_pos hc1] at ho
          refine ⟨k, s, ws, hr, by omega, fun j h1 h2 => absurd h1 (by omega), Or.inr ⟨hne, hz, by omega, rho, ?_, ?_, ?_⟩⟩
          · rw [ho]; exact hf
          · rw [ho, e1]
          · rw [ho]; exact hc1
        · rw [if_neg hc1] at ho hx
          cases hs2 : it1.step E red (2 * k + 2) (biSecond E k s' rho).norm with
          | none => rw [hs2] at hx; cases hx
          | some it2 =>
            rw [hs2] at ho hx
            dsimp only at ho hx
            obtain ⟨-, e2⟩ := step_eq hs2
            have hr2 : BiReach E s0 (k + 1) (biSecond E k s' rho) ((biSecond E k s' rho).omega :: ws) := BiReach.pass hr hz hf
            by_cases hc2 : it2.converged = true
            · rw [if_pos hc2] at ho
              refine ⟨k + 1, _, _, hr2, by omega, ?_, Or.inl ⟨?_, ?_, ?_⟩⟩
              · intro j h1 h2
                rw [show j = k by omega]
                exact ⟨s, ws, s', rho, hr, hne, hz, hf⟩
              · rw [ho, e2]; dsimp only; omega
              · rw [ho]
              · intro hcf; rw [ho] at hcf; dsimp only at hcf; rw [hc2] at hcf; cases hcf
            · rw [if_neg hc2] at ho hx
              have hne2 : (biSecond E k s' rho).r ≠ 0 := by
                intro h0
                apply hc2
                rw [e2]
                dsimp only
                rw [show (biSecond E k s' rho).norm = E.norm (biSecond E k s' rho).r from rfl, h0]
                exact hs _
              obtain ⟨k', t, ws', g1, g2, g3, g4⟩ := ih (k + 1) (biSecond E k s' rho) _ it2 hr2 rfl hne2 (by rw [e2]; dsimp only; omega)
                (by simpa using hc2) hx
              refine ⟨k', t, ws', g1, by omega, ?_, ?_⟩
              · intro j h1 h2
                rcases Nat.lt_or_ge j (k + 1) with hlt | hge
                · rw [show j = k by omega]
                  exact ⟨s, ws, s', rho, hr, hne, hz, hf⟩
                · exact g3 j h1 hge
              · rw [ho]
                rcases g4 with ⟨a1, a2, a3⟩ | ⟨a0, a1, a2, a3⟩
                · exact Or.inl ⟨a1, a2, fun hcf => by have := a3 hcf; omega⟩
                · exact Or.inr ⟨a0, a1, by omega, a3⟩

/-- **A run follows these passes**: a run that returns normally ends after `k` complete passes, or after `k` complete passes and one first
half step, and returns the vectors of that state. -/
theorem C75_run (E : Env K Rl X) (φ : X → X →ₗ[K] K) (A B : X →ₗ[K] X) (h : BiExact E φ A B) (red : Rl)
    (hs : ∀ d0, small E red d0 (E.norm 0) = true) (maxit : Nat) (x b : X) (hx : (biApply E red maxit x b).exc = none) :
    let e := biApply E red maxit x b
    let s0 := biStart (E.pre x b).1 (defect0 E x b) (E.norm (defect0 E x b))
    ∃ k s ws, BiReach E s0 k s ws ∧
      ((e.it.i = 2 * k ∧ e.x = E.post s.x ∧ e.b = s.r ∧ (e.it.converged = false → k = maxit)) ∨
       ∃ s' rho, s.r ≠ 0 ∧ E.isZero s.norm = false ∧ biFirst E k s = some (s', rho) ∧ e.it.i = 2 * k + 1 ∧ e.x = E.post s'.x ∧ e.b = s'.r ∧
         e.it.converged = true) := by
  intro e s0
  have he : e = biApply E red maxit x b := rfl
  unfold biApply at he
  dsimp only at he
  rw [show E.subOp (E.pre x b).1 (E.pre x b).2 = defect0 E x b from rfl] at he
  cases hs0 : It.start.step E red 0 (E.norm (defect0 E x b)) with
  | none => rw [hs0] at he; change e.exc = none at hx; rw [he] at hx; cases hx
  | some it =>
    rw [hs0] at he
    dsimp only at he
    obtain ⟨g, hi, hd0, hcur⟩ := good_start hs0
    by_cases hc : it.converged = true
    · rw [if_pos hc] at he
      refine ⟨0, s0, [], BiReach.start, Or.inl ⟨by rw [he]; exact hi, by rw [he]; rfl, by rw [he]; rfl, fun hcf => ?_⟩⟩
      rw [he] at hcf; dsimp only at hcf; rw [hc] at hcf; cases hcf
    · rw [if_neg hc] at he
      have hne : defect0 E x b ≠ 0 := by
        intro h0
        apply hc
        rw [g.conv, hcur, h0]
        exact hs _
      change e = (match (biLoop E red maxit 0 s0 it).2.2 with
        | some e' => _
        | none => _) at he
      cases hl : (biLoop E red maxit 0 s0 it).2.2 with
      | some e' => rw [hl] at he; change e.exc = none at hx; rw [he] at hx; cases hx
      | none =>
        rw [hl] at he
        dsimp only at he
        obtain ⟨k, s, ws, g1, g2, -, g4⟩ := bi_loop_end E φ A B h red hs s0 maxit 0 s0 [] it BiReach.start rfl hne (by omega)
          (by simpa using hc) hl
        refine ⟨k, s, ws, g1, ?_⟩
        rcases g4 with ⟨a1, a2, a3⟩ | ⟨a0, a1, a2, rho, a3, a4, a5⟩
        · refine Or.inl ⟨by rw [he]; exact a1, by rw [he, ← a2]; rfl, by rw [he, ← a2]; rfl, fun hcf => ?_⟩
          rw [he] at hcf
          have := a3 hcf
          omega
        · exact Or.inr ⟨_, rho, a0, a1, a3, by rw [he]; exact a4, by rw [he]; rfl, by rw [he]; rfl, by rw [he]; exact a5⟩

/-- **Exactness**: on a space of dimension `n` and with `maxit > n`, a run that does not throw (breakdown, or a defect that is not finite) has
converged, after at most `n` iterations (`2 n` half steps). -/
theorem C75_exact [Module.Finite K X] (E : Env K Rl X) (φ : X → X →ₗ[K] K) (A B : X →ₗ[K] X) (h : BiExact E φ A B) (red : Rl)
    (hs : ∀ d0, small E red d0 (E.norm 0) = true) (maxit : Nat) (hm : Module.finrank K X < maxit) (x b : X)
    (hx : (biApply E red maxit x b).exc = none) :
    (biApply E red maxit x b).it.converged = true ∧ (biApply E red maxit x b).it.i ≤ 2 * Module.finrank K X := by
  -- at most `n` passes start from a non-zero residual and get through the first half step
  have few : ∀ {x r0 d k} {s s' : BiSt K X Rl} {ws : List K} {rho : K}, BiReach E (biStart x r0 d) k s ws → s.r ≠ 0 →
      E.isZero s.norm = false → biFirst E k s = some (s', rho) → k < Module.finrank K X := by
    intro x r0 d k s s' ws rho hr hne hz hf
    obtain ⟨R, P, I⟩ := bi_inv h x d hr
    obtain ⟨-, -, -, nz, -⟩ := bi_pass h I hz hf
    refine bi_finite (φ := φ) (A := A) (B := B) (r0 := r0) (fun i hi => (I.res i hi).orth) nz (fun h0 => ?_)
    rw [I.r, h0, map_zero] at hne
    exact hne rfl
  obtain ⟨k, s, ws, hr, hcase⟩ := C75_run E φ A B h red hs maxit x b hx
  have hk : k ≤ Module.finrank K X := by
    cases hr with
    | start => omega
    | pass h1 h2 h3 =>
      rename_i k s s' ws rho
      have hn : s.norm = E.norm s.r := by cases h1 <;> rfl
      have h0 : s.r ≠ 0 := by
        intro h0
        rw [hn, (h.isZero _).2 h0] at h2
        cases h2
      have := few h1 h0 h2 h3
      omega
  rcases hcase with ⟨a1, -, -, a4⟩ | ⟨s', rho, b0, b1, b2, b3, -, -, b6⟩
  · refine ⟨?_, by omega⟩
    cases hc : (biApply E red maxit x b).it.converged with
    | true => rfl
    | false => have := a4 hc; omega
  · have := few hr b0 b1 b2
    exact ⟨b6, by omega⟩

/-! ## Non-vacuity: the unsymmetric matrix `((2,1),(-1,3))` -/

/-- The operator of the example. -/
def bsOp : ℚ × ℚ →ₗ[ℚ] ℚ × ℚ where
  toFun x := (2 * x.1 + x.2, -x.1 + 3 * x.2)
  map_add' x y := by ext <;> simp <;> ring
  map_smul' c x := by ext <;> simp <;> ring

/-- Its environment. -/
def bsEnv : Env ℚ ℚ (ℚ × ℚ) :=
  { demoEnv with subOp := fun x b => b - bsOp x, op := fun x => bsOp x, finite := fun _ => true,
                 norm := fun x => x.1 * x.1 + x.2 * x.2, abs := fun a => a * a }

/-- Its scalar product. -/
def bsForm : LinearMap.BilinForm ℚ (ℚ × ℚ) :=
  LinearMap.mk₂ ℚ (fun x y => x.1 * y.1 + x.2 * y.2) (by intros; simp; ring) (by intros; simp; ring) (by intros; simp; ring)
    (by intros; simp; ring)

theorem bs_exact : BiExact bsEnv (fun w => bsForm w) bsOp LinearMap.id where
  dot _ _ := rfl
  op _ := rfl
  sub _ _ := rfl
  prec _ _ := rfl
  above a ha := by
    rintro rfl
    revert ha; decide +kernel
  notBelow a ha := by
    rintro rfl
    revert ha; decide +kernel
  isZero y := by
    obtain ⟨a, c⟩ := y
    change decide (a * a + c * c = 0) = true ↔ _
    rw [decide_eq_true_iff]
    constructor
    · intro h
      exact Prod.ext (mul_self_eq_zero.1 (by nlinarith [mul_self_nonneg a, mul_self_nonneg c]))
        (mul_self_eq_zero.1 (by nlinarith [mul_self_nonneg a, mul_self_nonneg c]))
    · intro h
      obtain ⟨rfl, rfl⟩ := Prod.mk.inj h
      ring

/-- The run does not break down: it converges within two iterations to the solution. -/
example : (biApply bsEnv (1 / 100) 3 (0, 0) (1, 2)).exc = none ∧ (biApply bsEnv (1 / 100) 3 (0, 0) (1, 2)).it.i ≤ 4 := by
  have hx : (biApply bsEnv (1 / 100) 3 (0, 0) (1, 2)).exc = none := by decide +kernel
  have h2 : Module.finrank ℚ (ℚ × ℚ) = 2 := by simp
  have hs : ∀ d0, small bsEnv (1 / 100) d0 (bsEnv.norm 0) = true := fun d0 => by
    have : bsEnv.lt (bsEnv.norm 0) bsEnv.tiny = true := by decide +kernel
    rw [small, this, Bool.or_true]
  have := C75_exact bsEnv _ bsOp LinearMap.id bs_exact (1 / 100) hs 3 (by omega) (0, 0) (1, 2) hx
  exact ⟨hx, by omega⟩

/-- The first pass of that run: the hypotheses of `C75_residual` and `C75_half` hold with one complete pass. -/
example : ∃ s ws, BiReach bsEnv (biStart (0, 0) (1, 2) 5) 1 s ws ∧ bsEnv.isZero s.norm = false ∧ (biFirst bsEnv 1 s).isSome = true := by
  cases hf : biFirst bsEnv 0 (biStart (0, 0) (1, 2) 5) with
  | none =>
    have : (biFirst bsEnv 0 (biStart (0, 0) (1, 2) 5)).isSome = true := by decide +kernel
    rw [hf] at this; cases this
  | some sr =>
    obtain ⟨s', rho⟩ := sr
    refine ⟨_, _, BiReach.pass BiReach.start (by decide +kernel) hf, ?_, ?_⟩
    · have : (biFirst bsEnv 0 (biStart (0, 0) (1, 2) 5)).map (fun p => bsEnv.isZero (biSecond bsEnv 0 p.1 p.2).norm) = some false := by
        decide +kernel
      rw [hf] at this
      exact Option.some.inj this
    · have : (biFirst bsEnv 0 (biStart (0, 0) (1, 2) 5)).map (fun p => (biFirst bsEnv 1 (biSecond bsEnv 0 p.1 p.2)).isSome) = some true := by
        decide +kernel
      rw [hf] at this
      exact Option.some.inj this

end Solver
end Istl
