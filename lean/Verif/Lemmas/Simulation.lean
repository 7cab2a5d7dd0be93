import Verif.Spec.Simulation

/-! # Solver runs that simulate each other -/

namespace Istl
namespace Solver

variable {K Rl X Y : Type}

section
variable [Add X] [SMul K X] [Zero X] [Add Y] [SMul K Y] [Zero Y] {R : Rel X Y} {E : Env K Rl X} {F : Env K Rl Y}

theorem step_sim [Mul Rl] (h : Sim R E F) (red : Rl) (it : It Rl) (i : Nat) (d : Rl) : it.step E red i d = it.step F red i d := by
  unfold It.step small
  rw [h.finite, h.lt, h.tiny]

theorem forIt_sim [Mul Rl] (h : Sim R E F) {σ τ : Type} (Q : Nat → σ → τ → Prop) (S : σ → τ → Prop) (red : Rl)
    {adv : Nat → σ → σ} {adv' : Nat → τ → τ} {d : σ → Rl} {d' : τ → Rl} {aft : Nat → σ → σ} {aft' : Nat → τ → τ}
    (hQ : ∀ i s t, Q i s t → S s t) (hadv : ∀ i s t, Q i s t → S (adv i s) (adv' i t) ∧ d (adv i s) = d' (adv' i t) ∧
      Q (i + 1) (aft i (adv i s)) (aft' i (adv' i t))) (n i : Nat) (s : σ) (t : τ) (it : It Rl) (hs : Q i s t) :
    S (forIt E red adv d aft n i s it).1 (forIt F red adv' d' aft' n i t it).1 ∧
      (forIt E red adv d aft n i s it).2 = (forIt F red adv' d' aft' n i t it).2 := by
  induction n generalizing i s t it with
  | zero => exact ⟨hQ i s t hs, rfl⟩
  | succ n ih =>
    obtain ⟨h1, h2, h3⟩ := hadv i s t hs
    unfold forIt
    dsimp only
    rw [step_sim h, h2]
    cases it.step F red i (d' (adv' i t)) with
    | none => exact ⟨h1, rfl⟩
    | some it =>
      dsimp only
      cases it.converged with
      | true => exact ⟨h1, rfl⟩
      | false => exact ih (i + 1) _ _ it h3

theorem frame_sim [Mul Rl] [Zero Rl] (h : Sim R E F) {σ τ : Type} (Q : Nat → σ → τ → Prop) (S : σ → τ → Prop) (red : Rl) (maxit : Nat)
    {meas : X → Rl} {meas' : Y → Rl}
    {adv : Nat → σ → σ} {adv' : Nat → τ → τ} {d : σ → Rl} {d' : τ → Rl} {aft : Nat → σ → σ} {aft' : Nat → τ → τ}
    {init : X → X → Rl → σ} {init' : Y → Y → Rl → τ} {getx getb : σ → X} {getx' getb' : τ → Y}
    (hm : ∀ b c, R.dual b c → meas b = meas' c)
    (hQ : ∀ i s t, Q i s t → S s t) (hadv : ∀ i s t, Q i s t → S (adv i s) (adv' i t) ∧ d (adv i s) = d' (adv' i t) ∧
      Q (i + 1) (aft i (adv i s)) (aft' i (adv' i t)))
    (hinit : ∀ x y b c e, R.primal x y → R.dual b c → Q 1 (init x b e) (init' y c e)) (hx : ∀ s t, S s t → R.primal (getx s) (getx' t))
    {x : X} {y : Y} {b : X} {c : Y} (h0 : R.start x y) (hb : R.rhs b c) :
    SameExit R (frame E red maxit meas adv d aft init getx getb x b) (frame F red maxit meas' adv' d' aft' init' getx' getb' y c) := by
  obtain ⟨p1, p2⟩ := h.pre h0 hb
  have hr := h.subRhs p1 p2
  unfold frame
  dsimp only
  rw [step_sim h, hm _ _ hr]
  cases hst : It.start.step F red 0 (meas' (F.subOp (F.pre y c).1 (F.pre y c).2)) with
  | none => exact ⟨p1, rfl, rfl⟩
  | some it =>
    dsimp only
    cases it.converged with
    | true => exact ⟨h.post p1, rfl, rfl⟩
    | false =>
      simp only [Bool.false_eq_true, if_false]
      obtain ⟨r1, r2⟩ := forIt_sim h Q S red hQ hadv maxit 1 _ _ it (hinit _ _ _ _ (meas' (F.subOp (F.pre y c).1 (F.pre y c).2)) p1 hr)
      rw [r2]
      cases (forIt F red adv' d' aft' maxit 1 (init' (F.pre y c).1 (F.subOp (F.pre y c).1 (F.pre y c).2)
        (meas' (F.subOp (F.pre y c).1 (F.pre y c).2))) it).2.2 with
      | none => exact ⟨h.post (hx _ _ r1), rfl, rfl⟩
      | some e => exact ⟨hx _ _ r1, rfl, rfl⟩

end

section Simple
variable [Add X] [SMul K X] [Zero X] [Add Y] [SMul K Y] [Zero Y] {R : Rel X Y} {E : Env K Rl X} {F : Env K Rl Y}
  [Mul Rl] [Zero Rl]

theorem loop_sim (h : Sim R E F) (red : Rl) (maxit : Nat) {x b : X} {y c : Y} (h0 : R.start x y) (hb : R.rhs b c) :
    SameExit R (loopApply E red maxit x b) (loopApply F red maxit y c) := by
  let S : X × X → Y × Y → Prop := fun s t => R.primal s.1 t.1 ∧ R.dual s.2 t.2
  refine frame_sim h (fun _ => S) S red maxit (fun b c h' => h.norm (h.dual_any h')) (fun _ _ _ h => h) ?_
    (fun x y b c _ h1 h2 => ⟨h1, h2⟩) (fun s t hs => hs.1) h0 hb
  rintro i s t ⟨h1, h2⟩
  have hv := h.prec i h2
  have : S (loopAdvance E i s) (loopAdvance F i t) := ⟨h.primal_add h1 hv, h.subOp hv h2⟩
  exact ⟨this, h.norm (h.dual_any this.2), this⟩

variable [Zero K] [Neg K] [Div K]

theorem grad_sim (h : Sim R E F) (red : Rl) (maxit : Nat) {x b : X} {y c : Y} (h0 : R.start x y) (hb : R.rhs b c) :
    SameExit R (gradApply E red maxit x b) (gradApply F red maxit y c) := by
  let S : GradSt K X Rl → GradSt K Y Rl → Prop := fun s t => R.primal s.x t.x ∧ R.dual s.b t.b ∧ s.d = t.d
  refine frame_sim h (fun _ => S) S red maxit (fun b c h' => h.norm (h.dual_any h')) (fun _ _ _ h => h) ?_
    (fun x y b c _ h1 h2 => ⟨h1, h2, rfl⟩) (fun s t hs => hs.1) h0 hb
  rintro i s t ⟨h1, h2, h3⟩
  have hp := h.prec i h2
  have hq := h.op hp
  have hl : (if E.isZero s.d then (0 : K) else E.dot (E.prec i s.b) s.b / E.dot (E.op (E.prec i s.b)) (E.prec i s.b)) =
      if F.isZero t.d then (0 : K) else F.dot (F.prec i t.b) t.b / F.dot (F.op (F.prec i t.b)) (F.prec i t.b) := by
    rw [h.isZero, h3, h.dot (h.primal_any hp) (h.dual_any h2), h.dot (h.dual_any hq) (h.primal_any hp)]
  have : S (gradAdvance E i s) (gradAdvance F i t) := by
    unfold gradAdvance
    dsimp only
    rw [hl]
    have hb := fun a => h.dual_add h2 (h.dual_smul a hq)
    exact ⟨h.primal_add h1 (h.primal_smul _ hp), hb _, h.norm (h.dual_any (hb _))⟩
  exact ⟨this, this.2.2, this⟩

theorem cg_sim (h : Sim R E F) (red : Rl) (maxit : Nat) {x b : X} {y c : Y} (h0 : R.start x y) (hb : R.rhs b c) :
    SameExit R (cgApply E red maxit x b) (cgApply F red maxit y c) := by
  let S : CgSt K X Rl → CgSt K Y Rl → Prop := fun s t =>
    R.primal s.x t.x ∧ R.dual s.b t.b ∧ R.primal s.p t.p ∧ s.rholast = t.rholast ∧ s.d = t.d
  refine frame_sim h (fun _ => S) S red maxit (fun b c h' => h.norm (h.dual_any h')) (fun _ _ _ h => h) ?_
    (fun x y b c _ h1 h2 => ⟨h1, h2, h.prec 0 h2, h.dot (h.primal_any (h.prec 0 h2)) (h.dual_any h2), rfl⟩) (fun s t hs => hs.1) h0 hb
  rintro i s t ⟨h1, h2, h3, h4, h5⟩
  have hq := h.op h3
  have hl : (if E.isZero s.d then (0 : K) else s.rholast / E.dot s.p (E.op s.p)) =
      if F.isZero t.d then (0 : K) else t.rholast / F.dot t.p (F.op t.p) := by
    rw [h.isZero, h5, h4, h.dot (h.primal_any h3) (h.dual_any hq)]
  have ha : S (cgAdvance E i s) (cgAdvance F i t) := by
    unfold cgAdvance
    dsimp only
    rw [hl]
    have hb := fun a => h.dual_add h2 (h.dual_smul a hq)
    exact ⟨h.primal_add h1 (h.primal_smul _ h3), hb _, h3, h4, h.norm (h.dual_any (hb _))⟩
  refine ⟨ha, ha.2.2.2.2, ?_⟩
  generalize cgAdvance E i s = s' at ha
  generalize cgAdvance F i t = t' at ha
  obtain ⟨a1, a2, a3, a4, a5⟩ := ha
  have hq := h.prec i a2
  have hr := h.dot (h.primal_any hq) (h.dual_any a2)
  unfold cgAfter
  dsimp only
  rw [h.isZero, a5, a4, hr]
  exact ⟨a1, a2, h.primal_add (h.primal_smul _ a3) hq, rfl, rfl⟩

variable [One K] [Mul K]

/-- Corresponding states of BiCGSTAB. -/
structure BiRel (R : Rel X Y) (s : BiSt K X Rl) (t : BiSt K Y Rl) : Prop where
  x : R.primal s.x t.x
  r : R.dual s.r t.r
  p : R.dual s.p t.p
  v : R.dual s.v t.v
  rt : R.dual s.rt t.rt
  rho : s.rho = t.rho
  alpha : s.alpha = t.alpha
  omega : s.omega = t.omega
  norm : s.norm = t.norm

theorem biFirst_sim (h : Sim R E F) (k : Nat) {s : BiSt K X Rl} {t : BiSt K Y Rl} (hs : BiRel R s t) :
    (biFirst E k s = none ∧ biFirst F k t = none) ∨
      ∃ s' t' rho, biFirst E k s = some (s', rho) ∧ biFirst F k t = some (t', rho) ∧ BiRel R s' t' := by
  have hrho := h.dot (h.dual_any hs.rt) (h.dual_any hs.r)
  have hp : R.dual (biDir E k s (E.dot s.rt s.r)) (biDir F k t (F.dot t.rt t.r)) := by
    unfold biDir
    split
    · exact hs.r
    · dsimp only
      rw [h.isZero, hs.norm, hrho, hs.rho, hs.alpha, hs.omega]
      exact h.dual_add (h.dual_smul _ (h.dual_add hs.p (h.dual_smul _ hs.v))) hs.r
  have hy := h.prec (2 * k) hp
  have hv := h.op hy
  have hh := h.dot (h.dual_any hs.rt) (h.dual_any hv)
  unfold biFirst
  dsimp only
  rw [h.lt, h.eps, h.abs, hs.rho, hs.omega]
  by_cases c1 : (!F.lt F.eps (F.abs t.rho)) = true
  · rw [if_pos c1, if_pos c1]; exact .inl ⟨rfl, rfl⟩
  rw [if_neg c1, if_neg c1]
  by_cases c2 : (!F.lt F.eps (F.abs t.omega)) = true
  · rw [if_pos c2, if_pos c2]; exact .inl ⟨rfl, rfl⟩
  rw [if_neg c2, if_neg c2, hh]
  by_cases c3 : F.lt (F.abs (F.dot t.rt (F.op (F.prec (2 * k) (biDir F k t (F.dot t.rt t.r)))))) F.eps = true
  · rw [if_pos c3, if_pos c3]; exact .inl ⟨rfl, rfl⟩
  rw [if_neg c3, if_neg c3]
  right
  rw [h.isZero, hs.norm, hrho]
  rw [hrho] at hp hy hv
  have hr := h.dual_add hs.r (h.dual_smul (-(if F.isZero t.norm = true then (0 : K) else
    F.dot t.rt t.r / F.dot t.rt (F.op (F.prec (2 * k) (biDir F k t (F.dot t.rt t.r)))))) hv)
  refine ⟨_, _, _, rfl, rfl, ?_⟩
  exact ⟨h.primal_add hs.x (h.primal_smul _ hy), hr, hp, hv, hs.rt, rfl, rfl, rfl, h.norm (h.dual_any hr)⟩

theorem biSecond_sim (h : Sim R E F) (k : Nat) {s : BiSt K X Rl} {t : BiSt K Y Rl} (hs : BiRel R s t) (rho : K) :
    BiRel R (biSecond E k s rho) (biSecond F k t rho) := by
  have hy := h.prec (2 * k + 1) hs.r
  have ht := h.op hy
  unfold biSecond
  dsimp only
  rw [h.isZero, hs.norm, h.dot (h.dual_any ht) (h.dual_any hs.r), h.dot (h.dual_any ht) (h.dual_any ht)]
  have hr := h.dual_add hs.r (h.dual_smul (-(if F.isZero t.norm = true then (0 : K) else
    F.dot (F.op (F.prec (2 * k + 1) t.r)) t.r / F.dot (F.op (F.prec (2 * k + 1) t.r)) (F.op (F.prec (2 * k + 1) t.r)))) ht)
  exact ⟨h.primal_add hs.x (h.primal_smul _ hy), hr, hs.p, hs.v, hs.rt, rfl, hs.alpha, rfl, h.norm (h.dual_any hr)⟩

theorem biLoop_sim (h : Sim R E F) (red : Rl) (n k : Nat) {s : BiSt K X Rl} {t : BiSt K Y Rl} (hs : BiRel R s t) (it : It Rl) :
    BiRel R (biLoop E red n k s it).1 (biLoop F red n k t it).1 ∧ (biLoop E red n k s it).2 = (biLoop F red n k t it).2 := by
  induction n generalizing k s t it with
  | zero => exact ⟨hs, rfl⟩
  | succ n ih =>
    unfold biLoop
    rcases biFirst_sim h k hs with ⟨h1, h2⟩ | ⟨s', t', rho, h1, h2, hs'⟩
    · rw [h1, h2]; exact ⟨hs, rfl⟩
    · rw [h1, h2]
      dsimp only
      rw [step_sim h, hs'.norm]
      cases it.step F red (2 * k + 1) t'.norm with
      | none => exact ⟨hs', rfl⟩
      | some it =>
        dsimp only
        cases it.converged with
        | true => exact ⟨hs', rfl⟩
        | false =>
          have h2 := biSecond_sim h k hs' rho
          simp only [Bool.false_eq_true, if_false]
          rw [step_sim h, h2.norm]
          cases it.step F red (2 * k + 2) (biSecond F k t' rho).norm with
          | none => exact ⟨h2, rfl⟩
          | some it =>
            dsimp only
            cases it.converged with
            | true => exact ⟨h2, rfl⟩
            | false => exact ih (k + 1) h2 it

theorem bi_sim (h : Sim R E F) (red : Rl) (maxit : Nat) {x b : X} {y c : Y} (h0 : R.start x y) (hb : R.rhs b c) :
    SameExit R (biApply E red maxit x b) (biApply F red maxit y c) := by
  obtain ⟨p1, p2⟩ := h.pre h0 hb
  have hr := h.subRhs p1 p2
  unfold biApply
  dsimp only
  rw [step_sim h, h.norm (h.dual_any hr)]
  cases It.start.step F red 0 (F.norm (F.subOp (F.pre y c).1 (F.pre y c).2)) with
  | none => exact ⟨p1, rfl, rfl⟩
  | some it =>
    dsimp only
    cases it.converged with
    | true => exact ⟨h.post p1, rfl, rfl⟩
    | false =>
      simp only [Bool.false_eq_true, if_false]
      obtain ⟨r1, r2⟩ := biLoop_sim h red maxit 0
        (s := { x := (E.pre x b).1, r := E.subOp (E.pre x b).1 (E.pre x b).2, p := 0, v := 0, rt := E.subOp (E.pre x b).1 (E.pre x b).2,
                rho := 1, alpha := 1, omega := 1, norm := F.norm (F.subOp (F.pre y c).1 (F.pre y c).2) })
        (t := { x := (F.pre y c).1, r := F.subOp (F.pre y c).1 (F.pre y c).2, p := 0, v := 0, rt := F.subOp (F.pre y c).1 (F.pre y c).2,
                rho := 1, alpha := 1, omega := 1, norm := F.norm (F.subOp (F.pre y c).1 (F.pre y c).2) })
        ⟨p1, hr, h.dual_zero, h.dual_zero, hr, rfl, rfl, rfl, rfl⟩ it
      rw [r2]
      split
      · exact ⟨r1.x, rfl, rfl⟩
      · exact ⟨h.post r1.x, rfl, rfl⟩

end Simple
end Solver
end Istl
