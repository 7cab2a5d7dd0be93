import Verif.Spec.Cg
import Verif.Props.C29
import Mathlib.Tactic.FieldSimp
import Mathlib.Tactic.LinearCombination
import Mathlib.LinearAlgebra.SesquilinearForm.Basic
import Mathlib.LinearAlgebra.Dimension.Constructions
import Mathlib.LinearAlgebra.Dimension.Finite

/-! # Conjugacy of the CG directions -/

namespace Istl
namespace Solver

variable {K Rl X : Type} [Field K] [AddCommGroup X] [Module K X] [Mul Rl] [Zero Rl]

section
variable {E : Env K Rl X} {g : LinearMap.BilinForm K X} {A B : X →ₗ[K] X} {x b : X} {d : Rl}

/-- No breakdown in pass `k`: `def ≠ 0`, `<p,Ap> ≠ 0` and `<Br,r> ≠ 0`. -/
def NoBreakdown (E : Env K Rl X) (g : LinearMap.BilinForm K X) (A B : X →ₗ[K] X) (s : CgSt K X Rl) : Prop :=
  E.isZero s.d = false ∧ g s.p (A s.p) ≠ 0 ∧ g (B s.b) s.b ≠ 0

/-- The recurrences in mathematical notation. -/
theorem cg_rec (h : Symmetric E g A B) (k : Nat) (hnz : E.isZero (cgState E x b d k).d = false) :
    let s := cgState E x b d k
    let s' := cgState E x b d (k + 1)
    ∃ lam : K, lam = s.rholast / g s.p (A s.p) ∧ s'.x = s.x + lam • s.p ∧ s'.b = s.b - lam • A s.p ∧ s'.rholast = g (B s'.b) s'.b ∧
      s'.d = E.norm s'.b ∧ ∃ be : K, (E.isZero s'.d = false → be = s'.rholast / s.rholast) ∧ s'.p = B s'.b + be • s.p := by
  intro s s'
  refine ⟨s.rholast / g s.p (A s.p), rfl, ?_, ?_, ?_, rfl, ?_⟩
  · change s.x + (if E.isZero s.d = true then 0 else s.rholast / E.dot s.p (E.op s.p)) • s.p = _
    rw [hnz, h.dot, h.op]; simp
  · change s.b + (-(if E.isZero s.d = true then 0 else s.rholast / E.dot s.p (E.op s.p))) • E.op s.p = _
    rw [hnz, h.dot, h.op, neg_smul, ← sub_eq_add_neg]; simp
  · change E.dot (E.prec (k + 1) s'.b) s'.b = _
    rw [h.dot, h.prec]
  · refine ⟨if E.isZero s'.d = true then 0 else s'.rholast / s.rholast, fun hz => by rw [hz]; simp, ?_⟩
    change (if E.isZero s'.d = true then 0 else E.dot (E.prec (k + 1) s'.b) s'.b / s.rholast) • s.p + E.prec (k + 1) s'.b = _
    rw [h.prec, add_comm]
    congr 2
    split
    · rfl
    · change _ = E.dot (E.prec (k + 1) s'.b) s'.b / s.rholast
      rw [h.prec]

theorem cg_init (h : Symmetric E g A B) : (cgState E x b d 0).p = B b ∧ (cgState E x b d 0).rholast = g (B b) b ∧
    (cgState E x b d 0).b = b ∧ (cgState E x b d 0).x = x := by
  refine ⟨h.prec 0 b, ?_, rfl, rfl⟩
  change E.dot (E.prec 0 b) b = _
  rw [h.dot, h.prec]

/-- The orthogonality relations up to pass `k`. -/
structure CgOrth (E : Env K Rl X) (g : LinearMap.BilinForm K X) (A B : X →ₗ[K] X) (x b : X) (d : Rl) (k : Nat) : Prop where
  pAp : ∀ i j, i < j → j ≤ k → g (cgState E x b d i).p (A (cgState E x b d j).p) = 0
  pr : ∀ i j, i < j → j ≤ k → g (cgState E x b d i).p (cgState E x b d j).b = 0
  zr : ∀ i j, i < j → j ≤ k → g (B (cgState E x b d i).b) (cgState E x b d j).b = 0
  rho : ∀ j, j ≤ k → (cgState E x b d j).rholast = g (B (cgState E x b d j).b) (cgState E x b d j).b
  prj : ∀ j, j ≤ k → g (cgState E x b d j).p (cgState E x b d j).b = (cgState E x b d j).rholast

theorem cg_orth (h : Symmetric E g A B) : ∀ k, (∀ j, j < k → NoBreakdown E g A B (cgState E x b d j)) →
    E.isZero (cgState E x b d k).d = false → CgOrth E g A B x b d k := by
  intro k
  induction k with
  | zero =>
    intro _ _
    obtain ⟨h1, h2, h3, -⟩ := cg_init (x := x) (b := b) (d := d) h
    refine ⟨fun i j hij hj => by omega, fun i j hij hj => by omega, fun i j hij hj => by omega, fun j hj => ?_, fun j hj => ?_⟩
    · obtain rfl : j = 0 := by omega
      rw [h2, h3]
    · obtain rfl : j = 0 := by omega
      rw [h1, h2, h3]
  | succ k ih =>
    intro hnb hz
    have O := ih (fun j hj => hnb j (by omega)) (hnb k (by omega)).1
    obtain ⟨lam, hlam, -, hb, hrho, -, be, hbe, hp⟩ := cg_rec (x := x) (b := b) (d := d) h k (hnb k (by omega)).1
    have hbe := hbe hz
    obtain ⟨nz1, nz2, nz3⟩ := hnb k (by omega)
    have hrk := O.rho k (le_refl _)
    have hrk0 : (cgState E x b d k).rholast ≠ 0 := by rw [hrk]; exact nz3
    -- (a)
    have ha : ∀ i, i < k + 1 → g (cgState E x b d i).p (cgState E x b d (k + 1)).b = 0 := by
      intro i hi
      rw [hb, map_sub, map_smul, smul_eq_mul]
      rcases Nat.lt_succ_iff_lt_or_eq.1 hi with hi | rfl
      · rw [O.pr i k hi (le_refl _), O.pAp i k hi (le_refl _)]; ring
      · rw [O.prj i (le_refl _), hlam]; field_simp; ring
    -- (b)
    have hzi : ∀ i, i ≤ k → g (B (cgState E x b d i).b) (cgState E x b d (k + 1)).b = 0 := by
      intro i hi
      cases i with
      | zero =>
        have := ha 0 (by omega)
        rw [(cg_init (x := x) (b := b) (d := d) h).1] at this
        rw [(cg_init (x := x) (b := b) (d := d) h).2.2.1]
        exact this
      | succ i =>
        obtain ⟨_, _, -, _, _, _, be', _, hp'⟩ := cg_rec (x := x) (b := b) (d := d) h i (hnb i (by omega)).1
        have e : B (cgState E x b d (i + 1)).b = (cgState E x b d (i + 1)).p - be' • (cgState E x b d i).p := by
          rw [hp']; abel
        rw [e, map_sub, map_smul, LinearMap.sub_apply, LinearMap.smul_apply, ha _ (by omega), ha _ (by omega)]
        simp
    -- (d)
    have hd : ∀ i, i < k + 1 → g (cgState E x b d i).p (A (cgState E x b d (k + 1)).p) = 0 := by
      intro i hi
      obtain ⟨lami, hlami, -, hbi, -, -, -⟩ := cg_rec (x := x) (b := b) (d := d) h i (hnb i (by omega)).1
      obtain ⟨mz1, mz2, mz3⟩ := hnb i (by omega)
      have hri := O.rho i (by omega)
      have hri0 : (cgState E x b d i).rholast ≠ 0 := by rw [hri]; exact mz3
      have hlne : lami ≠ 0 := by rw [hlami]; exact div_ne_zero hri0 mz2
      -- lam_i <A p_i, z> = <r_i - r_{i+1}, z>
      have e1 : lami • A (cgState E x b d i).p = (cgState E x b d i).b - (cgState E x b d (i + 1)).b := by rw [hbi]; abel
      have e2 : lami * g (cgState E x b d i).p (A (B (cgState E x b d (k + 1)).b)) =
          g (B (cgState E x b d i).b) (cgState E x b d (k + 1)).b -
          g (B (cgState E x b d (i + 1)).b) (cgState E x b d (k + 1)).b := by
        rw [← h.adjA, ← smul_eq_mul, ← LinearMap.smul_apply, ← map_smul, e1, map_sub, LinearMap.sub_apply, h.adjB, h.adjB]
      have e3 : g (cgState E x b d i).p (A (cgState E x b d (k + 1)).p) =
          g (cgState E x b d i).p (A (B (cgState E x b d (k + 1)).b)) +
          be * g (cgState E x b d i).p (A (cgState E x b d k).p) := by
        rw [hp, map_add, map_add, map_smul, map_smul, smul_eq_mul]
      rcases Nat.lt_succ_iff_lt_or_eq.1 hi with hi' | rfl
      · rw [hzi i (by omega), hzi (i + 1) (by omega), sub_zero] at e2
        rw [e3, O.pAp i k hi' (le_refl _), (mul_eq_zero.1 e2).resolve_left hlne]; ring
      · rw [hzi i (by omega), ← hrho, zero_sub] at e2
        have e4 : g (cgState E x b d i).p (A (B (cgState E x b d (i + 1)).b)) = -(cgState E x b d (i + 1)).rholast / lami := by
          field_simp
          linear_combination e2
        rw [e3, e4, hbe, hlami]
        field_simp
        ring
    refine ⟨fun i j hij hj => ?_, fun i j hij hj => ?_, fun i j hij hj => ?_, fun j hj => ?_, fun j hj => ?_⟩
    · rcases Nat.lt_succ_iff_lt_or_eq.1 (Nat.lt_succ_of_le hj) with hj | rfl
      · exact O.pAp i j hij (by omega)
      · exact hd i hij
    · rcases Nat.lt_succ_iff_lt_or_eq.1 (Nat.lt_succ_of_le hj) with hj | rfl
      · exact O.pr i j hij (by omega)
      · exact ha i hij
    · rcases Nat.lt_succ_iff_lt_or_eq.1 (Nat.lt_succ_of_le hj) with hj | rfl
      · exact O.zr i j hij (by omega)
      · exact hzi i (by omega)
    · rcases Nat.lt_succ_iff_lt_or_eq.1 (Nat.lt_succ_of_le hj) with hj | rfl
      · exact O.rho j (by omega)
      · exact hrho
    · rcases Nat.lt_succ_iff_lt_or_eq.1 (Nat.lt_succ_of_le hj) with hj | rfl
      · exact O.prj j (by omega)
      · rw [hrho]
        conv_lhs => rw [hp]
        rw [map_add, map_smul, LinearMap.add_apply, LinearMap.smul_apply, ha k (by omega)]
        simp

/-- `b` stays the true defect along the sequence. -/
theorem cg_defect (h : Symmetric E g A B) (b0 : X) (h0 : b = b0 - A x) (k : Nat) :
    (cgState E x b d k).b = b0 - A (cgState E x b d k).x := by
  induction k with
  | zero => exact h0
  | succ k ih =>
    change (cgState E x b d k).b + (-(if E.isZero (cgState E x b d k).d = true then 0 else _)) • E.op (cgState E x b d k).p =
      b0 - A ((cgState E x b d k).x + _ • (cgState E x b d k).p)
    rw [h.op]
    exact defect_step _ ih

end

/-- Positive definiteness: `<x,Ax> > 0` and `<Bx,x> > 0` for `x ≠ 0`. -/
structure PosDef [LinearOrder K] [IsStrictOrderedRing K] (g : LinearMap.BilinForm K X) (A B : X →ₗ[K] X) : Prop where
  A : ∀ x, x ≠ 0 → 0 < g x (A x)
  B : ∀ x, x ≠ 0 → 0 < g (B x) x

section
variable [LinearOrder K] [IsStrictOrderedRing K] {E : Env K Rl X} {g : LinearMap.BilinForm K X} {A B : X →ₗ[K] X} {x b : X}

/-- While the residuals are non-zero there is no breakdown. -/
theorem cg_noBreakdown (h : Symmetric E g A B) (hp : PosDef g A B) (hz : ∀ y, E.isZero (E.norm y) = true ↔ y = 0) :
    ∀ k, (∀ j, j ≤ k → (cgState E x b (E.norm b) j).b ≠ 0) →
      ∀ j, j ≤ k → NoBreakdown E g A B (cgState E x b (E.norm b) j) ∧ (cgState E x b (E.norm b) j).p ≠ 0 := by
  have hd : ∀ j, (cgState E x b (E.norm b) j).d = E.norm (cgState E x b (E.norm b) j).b := by
    intro j; cases j <;> rfl
  intro k
  induction k with
  | zero =>
    intro hne j hj
    obtain rfl : j = 0 := by omega
    have hb := hne 0 (le_refl _)
    have hzz : E.isZero (cgState E x b (E.norm b) 0).d = false := by
      rw [hd]; exact Bool.eq_false_iff.2 fun h => hb ((hz _).1 h)
    have O := cg_orth (x := x) (b := b) (d := E.norm b) h 0 (fun j hj => by omega) hzz
    have hpne : (cgState E x b (E.norm b) 0).p ≠ 0 := by
      intro h0
      have := O.prj 0 (le_refl _)
      rw [h0, O.rho 0 (le_refl _), map_zero, LinearMap.zero_apply] at this
      exact (hp.B _ hb).ne this
    exact ⟨⟨hzz, (hp.A _ hpne).ne', (hp.B _ hb).ne'⟩, hpne⟩
  | succ k ih =>
    intro hne j hj
    have prev := ih (fun j hj => hne j (by omega))
    rcases Nat.lt_succ_iff_lt_or_eq.1 (Nat.lt_succ_of_le hj) with hj | rfl
    · exact prev j (by omega)
    · have hb := hne (k + 1) (le_refl _)
      have hzz : E.isZero (cgState E x b (E.norm b) (k + 1)).d = false := by
        rw [hd]; exact Bool.eq_false_iff.2 fun h => hb ((hz _).1 h)
      have O := cg_orth (x := x) (b := b) (d := E.norm b) h (k + 1) (fun j hj => (prev j (by omega)).1) hzz
      have hpne : (cgState E x b (E.norm b) (k + 1)).p ≠ 0 := by
        intro h0
        have := O.prj (k + 1) (le_refl _)
        rw [h0, O.rho (k + 1) (le_refl _), map_zero, LinearMap.zero_apply] at this
        exact (hp.B _ hb).ne this
      exact ⟨⟨hzz, (hp.A _ hpne).ne', (hp.B _ hb).ne'⟩, hpne⟩

/-- Some residual among the first `dim + 1` vanishes. -/
theorem cg_finite (h : Symmetric E g A B) (hp : PosDef g A B) (hz : ∀ y, E.isZero (E.norm y) = true ↔ y = 0)
    [Module.Finite K X] : ∃ k, k ≤ Module.finrank K X ∧ (cgState E x b (E.norm b) k).b = 0 := by
  by_contra hcon
  have hne : ∀ j, j ≤ Module.finrank K X → (cgState E x b (E.norm b) j).b ≠ 0 := fun j hj h0 => hcon ⟨j, hj, h0⟩
  have nb := cg_noBreakdown (x := x) (b := b) h hp hz _ hne
  have O := cg_orth (x := x) (b := b) (d := E.norm b) h (Module.finrank K X) (fun j hj => (nb j (by omega)).1) (nb _ (le_refl _)).1.1
  have hli : LinearIndependent K fun j : Fin (Module.finrank K X + 1) => (cgState E x b (E.norm b) j).p := by
    rw [linearIndependent_iff']
    intro s c hc i hi
    have := congrArg (fun v => g v (A (cgState E x b (E.norm b) i).p)) hc
    simp only [map_sum, LinearMap.sum_apply, map_smul, LinearMap.smul_apply, map_zero, LinearMap.zero_apply] at this
    rw [Finset.sum_eq_single i] at this
    · exact (mul_eq_zero.1 this).resolve_right (nb i (by omega)).1.2.1
    · intro j _ hji
      rcases Nat.lt_or_gt_of_ne (fun e => hji (Fin.ext e)) with hlt | hlt
      · rw [O.pAp j i hlt (by omega), smul_zero]
      · rw [h.comm, h.adjA, O.pAp i j hlt (by omega), smul_zero]
    · exact fun hni => absurd hi hni
  have := hli.fintype_card_le_finrank
  simp at this

end

/-! ## Linking the loop to the sequence -/

/-- A loop whose states form the sequence `seq`; `v` is a view not changed by `after`. -/
theorem forIt_seq {σ V : Type} {E : Env K Rl X} {red : Rl} {advance : Nat → σ → σ} {defect : σ → Rl} {after : Nat → σ → σ}
    (seq : Nat → σ) (v : σ → V) (hseq : ∀ k, seq (k + 1) = after (k + 1) (advance (k + 1) (seq k)))
    (hv : ∀ i s, v (after i s) = v s) (hdf : ∀ i s, defect (after i s) = defect s) :
    ∀ n (it : It Rl), it.converged = false →
      let r := forIt E red advance defect after n (it.i + 1) (seq it.i) it
      r.2.2 = none → v r.1 = v (seq r.2.1.i) ∧
        (r.2.1.converged = false → ∀ j, it.i < j → j ≤ it.i + n → small E red it.def0 (defect (seq j)) = false) ∧
        (r.2.1.converged = true → it.i < r.2.1.i ∧ small E red it.def0 (defect (seq r.2.1.i)) = true ∧
          ∀ j, it.i < j → j < r.2.1.i → small E red it.def0 (defect (seq j)) = false) := by
  intro n
  induction n with
  | zero =>
    intro it hc r _
    refine ⟨rfl, fun _ j h1 h2 => by omega, fun h => ?_⟩
    change it.converged = true at h
    rw [hc] at h; cases h
  | succ n ih =>
    intro it hc r hr
    have hr0 : r = forIt E red advance defect after (n + 1) (it.i + 1) (seq it.i) it := rfl
    simp only [forIt] at hr0
    cases hs : it.step E red (it.i + 1) (defect (advance (it.i + 1) (seq it.i))) with
    | none => rw [hs] at hr0; rw [hr0] at hr; cases hr
    | some it' =>
      rw [hs] at hr0
      dsimp only at hr0
      have hd : defect (advance (it.i + 1) (seq it.i)) = defect (seq (it.i + 1)) := by rw [hseq, hdf]
      have hit := (step_eq hs).2
      have hi : it'.i = it.i + 1 := by rw [hit]
      have hd0 : it'.def0 = it.def0 := by rw [hit]; simp
      have hcv : it'.converged = small E red it.def0 (defect (seq (it.i + 1))) := by rw [hit]; simp [hd]
      by_cases hcc : it'.converged = true
      · rw [if_pos hcc] at hr0
        rw [hr0]
        dsimp only
        refine ⟨?_, fun h => (by rw [hcc] at h; cases h), fun _ => ⟨by omega, ?_, fun j h1 h2 => by omega⟩⟩
        · rw [hi, hseq, hv]
        · rw [hi, ← hcv]; exact hcc
      · have hcf : it'.converged = false := by simpa using hcc
        rw [if_neg hcc, ← hseq, ← hi] at hr0
        have := ih it' hcf
        dsimp only at this
        rw [← hr0] at this
        obtain ⟨a1, a2, a3⟩ := this hr
        rw [hd0] at a2 a3
        have first : small E red it.def0 (defect (seq (it.i + 1))) = false := by rw [← hcv]; exact hcf
        refine ⟨a1, fun h j h1 h2 => ?_, fun h => ?_⟩
        · rcases Nat.lt_or_ge (it.i + 1) j with h3 | h3
          · exact a2 h j (by omega) (by omega)
          · obtain rfl : j = it.i + 1 := by omega
            exact first
        · obtain ⟨b1, b2, b3⟩ := a3 h
          refine ⟨by omega, b2, fun j h1 h2 => ?_⟩
          rcases Nat.lt_or_ge (it.i + 1) j with h3 | h3
          · exact b3 j (by omega) h2
          · obtain rfl : j = it.i + 1 := by omega
            exact first

/-- If every defect is finite the loop never aborts. -/
theorem forIt_no_abort {σ : Type} {E : Env K Rl X} {red : Rl} {advance : Nat → σ → σ} {defect : σ → Rl} {after : Nat → σ → σ}
    (hf : ∀ i s, E.finite (defect (advance i s)) = true) :
    ∀ n i s (it : It Rl), (forIt E red advance defect after n i s it).2.2 = none := by
  intro n
  induction n with
  | zero => intro i s it; rfl
  | succ n ih =>
    intro i s it
    simp only [forIt]
    cases hs : it.step E red i (defect (advance i s)) with
    | none => have := step_none hs; rw [hf] at this; cases this
    | some it' =>
      dsimp only
      split
      · rfl
      · exact ih _ _ _

theorem cg_never_aborts (E : Env K Rl X) (red : Rl) (maxit : Nat) (x b : X) (hfin : ∀ y, E.finite (E.norm y) = true) :
    ¬ (cgApply E red maxit x b).exc ≠ none := by
  intro hne
  apply hne
  unfold cgApply frame
  dsimp only
  cases hs : It.start.step E red 0 (E.norm (E.subOp (E.pre x b).1 (E.pre x b).2)) with
  | none => have := step_none hs; rw [hfin] at this; cases this
  | some it =>
    dsimp only
    split
    · rfl
    · have h := forIt_no_abort (E := E) (red := red) (advance := cgAdvance E) (defect := fun s => s.d) (after := cgAfter E)
        (fun i s => hfin _) maxit 1 (cgInit E (E.pre x b).1 (E.subOp (E.pre x b).1 (E.pre x b).2)
          (E.norm (E.subOp (E.pre x b).1 (E.pre x b).2))) it
      rw [h]

/-- The CG run in terms of the sequence. -/
theorem cg_run_seq (E : Env K Rl X) (red : Rl) (maxit : Nat) (x b : X) (hx : (cgApply E red maxit x b).exc = none) :
    let seq := cgState E (E.pre x b).1 (defect0 E x b) (E.norm (defect0 E x b))
    let e := cgApply E red maxit x b
    e.x = E.post (seq e.it.i).x ∧ e.b = (seq e.it.i).b ∧
    (e.it.converged = true → ∀ j, j < e.it.i → small E red (E.norm (defect0 E x b)) (E.norm (seq j).b) = false) ∧
    (e.it.converged = false → ∀ j, j ≤ maxit → small E red (E.norm (defect0 E x b)) (E.norm (seq j).b) = false) := by
  intro seq e
  have hd : ∀ j, (seq j).d = E.norm (seq j).b := by intro j; cases j <;> rfl
  have he : e = cgApply E red maxit x b := rfl
  unfold cgApply frame at he
  dsimp only at he
  rw [show E.subOp (E.pre x b).1 (E.pre x b).2 = defect0 E x b from rfl] at he
  cases hs : It.start.step E red 0 (E.norm (defect0 E x b)) with
  | none => rw [hs] at he; change e.exc = none at hx; rw [he] at hx; cases hx
  | some it =>
    rw [hs] at he
    dsimp only at he
    obtain ⟨g, hi, hd0, hcur⟩ := good_start hs
    by_cases hc : it.converged = true
    · rw [if_pos hc] at he
      rw [he]
      refine ⟨by dsimp only; rw [hi]; rfl, by dsimp only; rw [hi]; rfl, fun _ j hj => ?_, fun h => ?_⟩
      · dsimp only at hj; omega
      · dsimp only at h; rw [hc] at h; cases h
    · have hcf : it.converged = false := by simpa using hc
      rw [if_neg hc] at he
      have key := forIt_seq (E := E) (red := red) (advance := cgAdvance E) (defect := fun s => s.d) (after := cgAfter E) seq
        (fun s => (s.x, s.b)) (fun _ => rfl) (fun _ _ => rfl) (fun _ _ => rfl) maxit it hcf
      rw [hi, Nat.zero_add] at key
      dsimp only at key
      change e = (match (forIt E red (cgAdvance E) (fun s => s.d) (cgAfter E) maxit 1 (seq 0) it).2.2 with
        | some e' => _
        | none => _) at he
      have first : small E red (E.norm (defect0 E x b)) (E.norm (seq 0).b) = false := by
        have := g.conv
        rw [hcf, hd0, hcur] at this
        exact this.symm
      cases hr : (forIt E red (cgAdvance E) (fun s => s.d) (cgAfter E) maxit 1 (seq 0) it).2.2 with
      | some e' => rw [hr] at he; change e.exc = none at hx; rw [he] at hx; cases hx
      | none =>
        rw [hr] at he
        dsimp only at he
        obtain ⟨a1, a2, a3⟩ := key hr
        rw [hd0] at a2 a3
        rw [he]
        dsimp only
        refine ⟨congrArg E.post (Prod.mk.inj a1).1, (Prod.mk.inj a1).2, fun h j hj => ?_, fun h j hj => ?_⟩
        · cases j with
          | zero => exact first
          | succ j => rw [← hd]; exact (a3 h).2.2 _ (by omega) hj
        · cases j with
          | zero => exact first
          | succ j => rw [← hd]; exact a2 h _ (by omega) (by omega)

end Solver
end Istl
