import Verif.Lemmas.Simulation

/-! # Solver runs that simulate each other: MINRES, GMRes, flexible solvers -/

namespace Istl
namespace Solver

variable {K Rl X Y : Type} [Add X] [SMul K X] [Zero X] [Add Y] [SMul K Y] [Zero Y] {R : Rel X Y} {E : Env K Rl X} {F : Env K Rl Y}

section Rot
variable [Zero K] [One K] [Neg K] [Add K] [Mul K] [Div K] [Zero Rl] [One Rl] [Add Rl] [Mul Rl] [Div Rl]

theorem planeRotation_sim (h : Sim R E F) (cj : K → K) (dx dy : K) : planeRotation E cj dx dy = planeRotation F cj dx dy := by
  unfold planeRotation
  rw [h.abs, h.lt, h.rsqrt, h.rotEps, h.ofReal]

theorem applyRotation_sim (h : Sim R E F) (dx dy : K) (cs : Rl) (sn : K) : applyRotation E dx dy cs sn = applyRotation F dx dy cs sn := by
  unfold applyRotation
  rw [h.ofReal, h.conj]

end Rot

section Minres
variable [Zero K] [One K] [Neg K] [Add K] [Sub K] [Mul K] [Div K] [Zero Rl] [One Rl] [Add Rl] [Mul Rl] [Div Rl]

/-- Corresponding states of MINRES. -/
structure MinRel (R : Rel X Y) (s₁ : MinSt K X Rl) (s₂ : MinSt K Y Rl) : Prop where
  x : R.primal s₁.x s₂.x
  z : R.primal s₁.z s₂.z
  q : ∀ k, R.dual (s₁.q k) (s₂.q k)
  p : ∀ k, R.primal (s₁.p k) (s₂.p k)
  beta : s₁.beta = s₂.beta
  beta0 : s₁.beta0 = s₂.beta0
  c : s₁.c = s₂.c
  s : s₁.s = s₂.s
  T2 : s₁.T2 = s₂.T2
  xi : s₁.xi = s₂.xi
  d : s₁.d = s₂.d

theorem upd_rel {α β : Type} {P : α → β → Prop} {f : Nat → α} {g : Nat → β} (h : ∀ k, P (f k) (g k)) (i : Nat) {a : α} {b : β} (hab : P a b)
    (k : Nat) : P (upd f i a k) (upd g i b k) := by
  unfold upd
  split
  · exact hab
  · exact h k

theorem minAdvance_sim (h : Sim R E F) (i : Nat) {s : MinSt K X Rl} {t : MinSt K Y Rl} (hs : MinRel R s t) :
    MinRel R (minAdvance E i s) (minAdvance F i t) := by
  obtain ⟨sx, sb, sz, sq, sp, be, be0, c, sn, T2, xi, d⟩ := s
  obtain ⟨tx, tb, tz, tq, tp, _, _, _, _, _, _, _⟩ := t
  obtain ⟨hx, hz, hq, hp, h1, h2, h3, h4, h5, h6, h7⟩ := hs
  dsimp only at hx hz hq hp h1 h2 h3 h4 h5 h6 h7
  subst h1 h2 h3 h4 h5 h6 h7
  have hqa := h.dual_add (h.op hz) (h.dual_smul (-be) (hq ((i % 3 + 2) % 3)))
  have hal := h.dot (h.primal_any hz) (h.dual_any hqa)
  have hqb := h.dual_add hqa (h.dual_smul (-(F.dot tz (F.op tz + (-be) • tq ((i % 3 + 2) % 3)))) (hq (i % 3)))
  have hzn := h.prec i hqb
  have hbe := h.dot (h.dual_any hqb) (h.primal_any hzn)
  unfold minAdvance minLanczos minColumn
  dsimp only
  rw [hal, hbe, h.ofReal, h.isZero, h.abs, h.sqrt, planeRotation_sim h]
  have hp2 : ∀ a b c : K, R.primal (a • (sz + b • sp (i % 3) + c • sp ((i % 3 + 2) % 3))) (a • (tz + b • tp (i % 3) + c • tp ((i % 3 + 2) % 3))) :=
    fun a b c => h.primal_smul _ (h.primal_add (h.primal_add hz (h.primal_smul _ (hp _))) (h.primal_smul _ (hp _)))
  exact ⟨h.primal_add hx (h.primal_smul _ (hp2 _ _ _)), h.primal_smul _ hzn, upd_rel hq _ (h.dual_smul _ hqb), upd_rel hp _ (hp2 _ _ _),
    rfl, rfl, rfl, rfl, rfl, rfl, rfl⟩

theorem min_sim (h : Sim R E F) (red : Rl) (maxit : Nat) {x b : X} {y c : Y} (h0 : R.start x y) (hb : R.rhs b c) :
    SameExit R (minApply E red maxit x b) (minApply F red maxit y c) := by
  refine frame_sim h (fun _ => MinRel R) (MinRel R) red maxit (fun b c h' => h.norm (h.primal_any (h.prec 0 h'))) (fun _ _ _ h => h) ?_ ?_
    (fun s t hs => hs.x) h0 hb
  · intro i s t hs
    have := minAdvance_sim h i hs
    exact ⟨this, this.d, this⟩
  · intro x y b c e h1 h2
    have hz := h.prec 0 h2
    unfold minInit
    dsimp only
    rw [h.dot (h.dual_any h2) (h.primal_any hz), h.sqrt, h.isZero]
    refine ⟨h1, h.primal_smul _ hz, fun k => ?_, fun _ => h.primal_zero, rfl, rfl, rfl, rfl, rfl, rfl, rfl⟩
    dsimp only
    split
    · exact h.dual_smul _ h2
    · exact h.dual_zero

end Minres

section Gmres
variable [Zero K] [One K] [Neg K] [Add K] [Sub K] [Mul K] [Div K] [DecidableEq K] [Zero Rl] [One Rl] [Add Rl] [Mul Rl] [Div Rl]

/-- Corresponding states of GMRes (`P` the kind of the basis vectors): the basis vectors below `n` and the vectors of the correction
below `m`. -/
structure GmRel (R : Rel X Y) (P Q : X → Y → Prop) (n m : Nat) (s₁ : GmSt K X Rl) (s₂ : GmSt K Y Rl) : Prop where
  x : R.primal s₁.x s₂.x
  b : Q s₁.b s₂.b
  v : ∀ k, k < n → P (s₁.v k) (s₂.v k)
  y : ∀ k, k < m → R.primal (s₁.y k) (s₂.y k)
  H : s₁.H = s₂.H
  s : s₁.s = s₂.s
  cs : s₁.cs = s₂.cs
  sn : s₁.sn = s₂.sn
  norm : s₁.norm = s₂.norm
  calls : s₁.calls = s₂.calls

theorem gram_sim (h : Sim R E F) {P : X → Y → Prop} (hP : ∀ {x y}, P x y → R.any x y)
    (hadd : ∀ {x y v w} (a : K), P x y → P v w → P (x + a • v) (y + a • w)) {v : Nat → X} {v' : Nat → Y} (i : Nat)
    (hv : ∀ k, k < i + 1 → P (v k) (v' k)) {w : X} {w' : Y} (hw : P w w') (col : Nat → K) :
    P (gramSchmidt E v i w col).1 (gramSchmidt F v' i w' col).1 ∧ (gramSchmidt E v i w col).2 = (gramSchmidt F v' i w' col).2 := by
  unfold gramSchmidt forRange
  suffices hh : ∀ n, n ≤ i + 1 → P ((List.range n).foldl (fun (wc : X × (Nat → K)) k => (wc.1 + (-(E.dot (v k) wc.1)) • v k, upd wc.2 k (E.dot (v k) wc.1))) (w, col)).1
      ((List.range n).foldl (fun (wc : Y × (Nat → K)) k => (wc.1 + (-(F.dot (v' k) wc.1)) • v' k, upd wc.2 k (F.dot (v' k) wc.1))) (w', col)).1 ∧
      ((List.range n).foldl (fun (wc : X × (Nat → K)) k => (wc.1 + (-(E.dot (v k) wc.1)) • v k, upd wc.2 k (E.dot (v k) wc.1))) (w, col)).2 =
      ((List.range n).foldl (fun (wc : Y × (Nat → K)) k => (wc.1 + (-(F.dot (v' k) wc.1)) • v' k, upd wc.2 k (F.dot (v' k) wc.1))) (w', col)).2 from
    hh (i + 1) (le_refl _)
  intro n
  induction n with
  | zero => intro _; exact ⟨hw, rfl⟩
  | succ n ih =>
    intro hn
    obtain ⟨h1, h2⟩ := ih (by omega)
    simp only [List.range_succ, List.foldl_append, List.foldl_cons, List.foldl_nil]
    have hd := h.dot (hP (hv n (by omega))) (hP h1)
    rw [hd, h2]
    exact ⟨hadd _ h1 (hv n (by omega)), rfl⟩

theorem rotateColumn_sim (h : Sim R E F) (cs : Nat → Rl) (sn : Nat → K) (i : Nat) (col : Nat → K) :
    rotateColumn E cs sn i col = rotateColumn F cs sn i col := by
  unfold rotateColumn
  congr 1
  funext k c
  dsimp only
  rw [applyRotation_sim h]

theorem qrUpdate_sim (h : Sim R E F) {P Q : X → Y → Prop} {n m : Nat} (i : Nat) (col : Nat → K) {s : GmSt K X Rl} {t : GmSt K Y Rl}
    (hs : GmRel R P Q n m s t) : GmRel R P Q n m (qrUpdate E i col s) (qrUpdate F i col t) := by
  obtain ⟨sx, sb, sv, sy, H, ss, cs, sn, no, ca⟩ := s
  obtain ⟨tx, tb, tv, ty, _, _, _, _, _, _⟩ := t
  obtain ⟨hx, hb, hv, hy, h1, h2, h3, h4, h5, h6⟩ := hs
  dsimp only at hx hb hv hy h1 h2 h3 h4 h5 h6
  subst h1 h2 h3 h4 h5 h6
  unfold qrUpdate
  dsimp only
  rw [rotateColumn_sim h, planeRotation_sim h, h.conj, applyRotation_sim h, applyRotation_sim h, h.abs]
  exact ⟨hx, hb, hv, hy, rfl, rfl, rfl, rfl, rfl, rfl⟩

theorem gmStep_sim (h : Sim R E F) (i : Nat) {s : GmSt K X Rl} {t : GmSt K Y Rl}
    (hs : GmRel R R.primal R.any (i + 1) i s t) :
    (gmStep E i s = none ∧ gmStep F i t = none) ∨
      ∃ s' t', gmStep E i s = some s' ∧ gmStep F i t = some t' ∧ GmRel R R.primal R.any (i + 2) (i + 1) s' t' := by
  obtain ⟨sx, sb, sv, sy, H, ss, cs, sn, no, ca⟩ := s
  obtain ⟨tx, tb, tv, ty, _, _, _, _, _, _⟩ := t
  obtain ⟨hx, hb, hv, hy, h1, h2, h3, h4, h5, h6⟩ := hs
  dsimp only at hx hb hv hy h1 h2 h3 h4 h5 h6
  subst h1 h2 h3 h4 h5 h6
  have hw := h.prec ca (h.op (hv i (by omega)))
  obtain ⟨g1, g2⟩ := gram_sim h (P := R.primal) h.primal_any (fun a h1 h2 => h.primal_add h1 (h.primal_smul a h2)) i hv hw (fun a => H a i)
  unfold gmStep
  dsimp only
  rw [h.norm (h.primal_any g1), h.ofReal, h.abs, h.lt, h.eps, h.isZero, g2]
  by_cases c : F.lt (F.abs (F.ofReal (F.norm (gramSchmidt F tv i (F.prec ca (F.op (tv i))) fun a => H a i).1))) F.eps = true
  · rw [if_pos c, if_pos c]; exact .inl ⟨rfl, rfl⟩
  · rw [if_neg c, if_neg c]
    refine .inr ⟨_, _, rfl, rfl, qrUpdate_sim h _ _ ⟨hx, hb, ?_, ?_, rfl, rfl, rfl, rfl, rfl, rfl⟩⟩
    all_goals
      intro k hk
      dsimp only
      unfold upd
      split
      · exact h.primal_smul _ g1
      · exact hv k (by omega)

theorem fgmStep_sim (h : Sim R E F) (i : Nat) {s : GmSt K X Rl} {t : GmSt K Y Rl}
    (hs : GmRel R R.dual R.rhs (i + 1) i s t) :
    (fgmStep E i s = none ∧ fgmStep F i t = none) ∨
      ∃ s' t', fgmStep E i s = some s' ∧ fgmStep F i t = some t' ∧ GmRel R R.dual R.rhs (i + 2) (i + 1) s' t' := by
  obtain ⟨sx, sb, sv, sy, H, ss, cs, sn, no, ca⟩ := s
  obtain ⟨tx, tb, tv, ty, _, _, _, _, _, _⟩ := t
  obtain ⟨hx, hb, hv, hy, h1, h2, h3, h4, h5, h6⟩ := hs
  dsimp only at hx hb hv hy h1 h2 h3 h4 h5 h6
  subst h1 h2 h3 h4 h5 h6
  have hw := h.prec ca (hv i (by omega))
  obtain ⟨g1, g2⟩ := gram_sim h (P := R.dual) h.dual_any (fun a h1 h2 => h.dual_add h1 (h.dual_smul a h2)) i hv (h.op hw) (fun a => H a i)
  unfold fgmStep
  dsimp only
  rw [h.norm (h.dual_any g1), h.ofReal, h.abs, h.lt, h.eps, g2]
  by_cases c : F.lt (F.abs (F.ofReal (F.norm (gramSchmidt F tv i (F.op (F.prec ca (tv i))) fun a => H a i).1))) F.eps = true
  · rw [if_pos c, if_pos c]; exact .inl ⟨rfl, rfl⟩
  · rw [if_neg c, if_neg c]
    refine .inr ⟨_, _, rfl, rfl, qrUpdate_sim h _ _ ⟨hx, hb, ?_, ?_, rfl, rfl, rfl, rfl, rfl, rfl⟩⟩
    · intro k hk
      dsimp only
      unfold upd
      split
      · exact h.dual_smul _ g1
      · exact hv k (by omega)
    · intro k hk
      dsimp only
      unfold upd
      split
      · exact hw
      · exact hy k (by omega)

theorem gmInner_sim (h : Sim R E F) {P Q : X → Y → Prop} (red : Rl) (maxit : Nat) {stp : Nat → GmSt K X Rl → Option (GmSt K X Rl)}
    {stp' : Nat → GmSt K Y Rl → Option (GmSt K Y Rl)}
    (hstp : ∀ i s t, GmRel R P Q (i + 1) i s t → (stp i s = none ∧ stp' i t = none) ∨
      ∃ s' t', stp i s = some s' ∧ stp' i t = some t' ∧ GmRel R P Q (i + 2) (i + 1) s' t')
    (n i j : Nat) {s : GmSt K X Rl} {t : GmSt K Y Rl} (hs : GmRel R P Q (i + 1) i s t) (it : It Rl) :
    (gmInner E red maxit stp n i j s it).2 = (gmInner F red maxit stp' n i j t it).2 ∧
      GmRel R P Q ((gmInner E red maxit stp n i j s it).2.2.1 + 1) (gmInner E red maxit stp n i j s it).2.2.1
        (gmInner E red maxit stp n i j s it).1 (gmInner F red maxit stp' n i j t it).1 := by
  induction n generalizing i j s t it with
  | zero => exact ⟨rfl, hs⟩
  | succ n ih =>
    unfold gmInner
    by_cases c : j ≤ maxit ∧ it.converged = false
    · rw [if_pos c, if_pos c]
      rcases hstp i s t hs with ⟨h1, h2⟩ | ⟨s', t', h1, h2, h3⟩
      · rw [h1, h2]; exact ⟨rfl, hs⟩
      · rw [h1, h2]
        dsimp only
        rw [step_sim h, h3.norm]
        cases it.step F red j t'.norm with
        | none => exact ⟨rfl, { h3 with v := fun k hk => h3.v k (by dsimp only at hk; omega), y := fun k hk => h3.y k (by dsimp only at hk; omega) }⟩
        | some it => exact ih (i + 1) (j + 1) h3 it
    · rw [if_neg c, if_neg c]; exact ⟨rfl, hs⟩

theorem gmUpdate_sim (h : Sim R E F) (i : Nat) (H : Nat → Nat → K) (s : Nat → K) {v : Nat → X} {v' : Nat → Y}
    (hv : ∀ k, k < i → R.primal (v k) (v' k)) : R.primal (gmUpdate i H s v) (gmUpdate i H s v') := by
  unfold gmUpdate forDown
  dsimp only
  suffices hh : ∀ (L : List Nat), (∀ k ∈ L, k < i) → ∀ (w : X) (w' : Y), R.primal w w' →
      R.primal (L.foldl (fun w a => w + backSubst i H s a • v a) w) (L.foldl (fun w a => w + backSubst i H s a • v' a) w') from
    hh _ (fun k hk => by simpa using hk) 0 0 h.primal_zero
  intro L
  induction L with
  | nil => intro _ w w' hw; exact hw
  | cons k L ih =>
    intro hL w w' hw
    exact ih (fun k hk => hL k (List.mem_cons_of_mem _ hk)) _ _ (h.primal_add hw (h.primal_smul _ (hv k (hL k (List.mem_cons_self ..)))))

theorem gmOuter_sim (h : Sim R E F) {P Q : X → Y → Prop} (red : Rl) (maxit m : Nat) {stp : Nat → GmSt K X Rl → Option (GmSt K X Rl)}
    {stp' : Nat → GmSt K Y Rl → Option (GmSt K Y Rl)} {start restart : GmSt K X Rl → GmSt K X Rl} {start' restart' : GmSt K Y Rl → GmSt K Y Rl}
    (hstp : ∀ i s t, GmRel R P Q (i + 1) i s t → (stp i s = none ∧ stp' i t = none) ∨
      ∃ s' t', stp i s = some s' ∧ stp' i t = some t' ∧ GmRel R P Q (i + 2) (i + 1) s' t')
    (hstart : ∀ s t, GmRel R P Q 1 0 s t → GmRel R P Q 1 0 (start s) (start' t))
    (hrestart : ∀ s t, GmRel R P Q 1 0 s t → GmRel R P Q 1 0 (restart s) (restart' t))
    (fuel j : Nat) {s : GmSt K X Rl} {t : GmSt K Y Rl} (hs : GmRel R P Q 1 0 s t) (it : It Rl) :
    (gmOuter E red maxit m stp start restart fuel j s it = none ∧ gmOuter F red maxit m stp' start' restart' fuel j t it = none) ∨
    ∃ s' t' r, gmOuter E red maxit m stp start restart fuel j s it = some (s', r) ∧
      gmOuter F red maxit m stp' start' restart' fuel j t it = some (t', r) ∧ GmRel R P Q 1 0 s' t' := by
  induction fuel generalizing j s t it with
  | zero =>
    unfold gmOuter
    by_cases c : j ≤ maxit ∧ it.converged = false
    · rw [if_pos c, if_pos c]; exact .inl ⟨rfl, rfl⟩
    · rw [if_neg c, if_neg c]; exact .inr ⟨_, _, _, rfl, rfl, hs⟩
  | succ fuel ih =>
    unfold gmOuter
    by_cases c : j ≤ maxit ∧ it.converged = false
    · rw [if_pos c, if_pos c]
      dsimp only
      have h1 : GmRel R P Q 1 0 (gmResetS E m (start s)) (gmResetS F m (start' t)) := by
        have := hstart s t hs
        unfold gmResetS
        rw [h.ofReal]
        exact { this with s := by dsimp only; rw [this.norm, this.s] }
      obtain ⟨i1, i2⟩ := gmInner_sim h red maxit hstp m 0 j h1 it
      rw [i1] at i2 ⊢
      generalize hgE : gmInner E red maxit stp m 0 j (gmResetS E m (start s)) it = rE at i1 i2 ⊢
      generalize hgF : gmInner F red maxit stp' m 0 j (gmResetS F m (start' t)) it = rF at i1 i2 ⊢
      obtain ⟨sF, itF, iF, jF, eF⟩ := rF
      dsimp only at i1 i2 ⊢
      have i3 : GmRel R P Q 1 0 rE.1 sF :=
        { i2 with v := fun k hk => i2.v k (by omega), y := fun k hk => i2.y k (by omega) }
      cases eF with
      | some e => exact .inr ⟨_, _, _, rfl, rfl, i3⟩
      | none =>
        dsimp only
        have i4 : GmRel R P Q 1 0 { rE.1 with x := rE.1.x + gmUpdate iF rE.1.H rE.1.s rE.1.y } { sF with x := sF.x + gmUpdate iF sF.H sF.s sF.y } := by
          have hx : R.primal (rE.1.x + gmUpdate iF rE.1.H rE.1.s rE.1.y) (sF.x + gmUpdate iF sF.H sF.s sF.y) := by
            rw [i2.H, i2.s]
            exact h.primal_add i2.x (gmUpdate_sim h iF sF.H sF.s i2.y)
          exact ⟨hx, i3.b, i3.v, i3.y, i3.H, i3.s, i3.cs, i3.sn, i3.norm, i3.calls⟩
        refine ih jF ?_ itF
        by_cases c2 : itF.converged = false ∧ jF < maxit
        · rw [if_pos c2, if_pos c2]; exact hrestart _ _ i4
        · rw [if_neg c2, if_neg c2]; exact i4
    · rw [if_neg c, if_neg c]; exact .inr ⟨_, _, _, rfl, rfl, hs⟩

theorem gmExit_sim (h : Sim R E F) {P Q : X → Y → Prop} {n m : Nat} {s : GmSt K X Rl} {t : GmSt K Y Rl} (hs : GmRel R P Q n m s t)
    (r : It Rl × Option Exc) : SameExit R (gmExit E (s, r)) (gmExit F (t, r)) := by
  obtain ⟨it, e⟩ := r
  unfold gmExit
  cases e with
  | none => exact ⟨h.post hs.x, rfl, rfl⟩
  | some e => exact ⟨hs.x, rfl, rfl⟩

/-- GMRes restarts from a copy of the right hand side taken before `pre`, so this copy must represent the right hand side too. -/
theorem gm_sim (h : Sim R E F) (red : Rl) (maxit m fuel : Nat) {x b : X} {y c : Y} (h0 : R.start x y) (hb : R.rhs b c) :
    SameRun R (gmApply E red maxit m fuel x b) (gmApply F red maxit m fuel y c) := by
  obtain ⟨p1, p2⟩ := h.pre h0 hb
  have hr := h.subRhs p1 p2
  have hv := h.prec 0 hr
  unfold gmApply gmApplyWith
  dsimp only
  rw [step_sim h, h.norm (h.primal_any hv)]
  cases It.start.step F red 0 (F.norm (F.prec 0 (F.subOp (F.pre y c).1 (F.pre y c).2))) with
  | none => exact ⟨p1, rfl, rfl⟩
  | some it =>
    dsimp only
    cases it.converged with
    | true => exact ⟨h.post p1, rfl, rfl⟩
    | false =>
      simp only [Bool.false_eq_true, if_false]
      have hstart : ∀ (s : GmSt K X Rl) (t : GmSt K Y Rl), GmRel R R.primal R.any 1 0 s t →
          GmRel R R.primal R.any 1 0 (gmStart E s) (gmStart F t) := by
        intro s t hs
        unfold gmStart
        dsimp only
        rw [h.isZero, hs.norm, h.ofReal]
        refine { hs with v := fun k hk => ?_, y := fun k hk => absurd hk (by omega), norm := rfl }
        have : k = 0 := by omega
        subst this
        dsimp only
        rw [upd, if_pos rfl, upd, if_pos rfl]
        exact h.primal_smul _ (hs.v 0 (by omega))
      have hrestart : ∀ (s : GmSt K X Rl) (t : GmSt K Y Rl), GmRel R R.primal R.any 1 0 s t →
          GmRel R R.primal R.any 1 0 (gmRestart E b s) (gmRestart F c t) := by
        intro s t hs
        have h1 := h.subRhs hs.x hb
        have h2 := h.prec s.calls h1
        unfold gmRestart
        dsimp only
        rw [← hs.calls]
        refine { hs with b := h.dual_any h1, v := fun k hk => ?_, y := fun k hk => absurd hk (by omega), norm := h.norm (h.primal_any h2), calls := rfl }
        have : k = 0 := by omega
        subst this
        dsimp only
        rw [upd, if_pos rfl, upd, if_pos rfl]
        exact h2
      rcases gmOuter_sim h red maxit m (fun i s t => gmStep_sim h i) hstart hrestart fuel 1
        (s := gmInit (E.pre x b).1 (E.subOp (E.pre x b).1 (E.pre x b).2) (E.prec 0 (E.subOp (E.pre x b).1 (E.pre x b).2)) b
          (F.norm (F.prec 0 (F.subOp (F.pre y c).1 (F.pre y c).2))) 1)
        (t := gmInit (F.pre y c).1 (F.subOp (F.pre y c).1 (F.pre y c).2) (F.prec 0 (F.subOp (F.pre y c).1 (F.pre y c).2)) c
          (F.norm (F.prec 0 (F.subOp (F.pre y c).1 (F.pre y c).2))) 1)
        ⟨p1, h.dual_any hr, fun k hk => by
          have : k = 0 := by omega
          subst this; exact hv, fun k hk => absurd hk (by omega), rfl, rfl, rfl, rfl, rfl, rfl⟩ it with ⟨h1, h2⟩ | ⟨s', t', r, h1, h2, h3⟩
      · rw [h1, h2]; trivial
      · rw [h1, h2]; exact gmExit_sim h h3 r

theorem fgm_sim (h : Sim R E F) (red : Rl) (maxit m fuel : Nat) {x b : X} {y c : Y} (h0 : R.start x y) (hb : R.rhs b c) :
    SameRun R (fgmApply E red maxit m fuel x b) (fgmApply F red maxit m fuel y c) := by
  obtain ⟨p1, p2⟩ := h.pre h0 hb
  have hr := h.subRhs p1 p2
  unfold fgmApply fgmApplyWith
  dsimp only
  rw [step_sim h, h.norm (h.dual_any hr)]
  cases It.start.step F red 0 (F.norm (F.subOp (F.pre y c).1 (F.pre y c).2)) with
  | none => exact ⟨p1, rfl, rfl⟩
  | some it =>
    dsimp only
    cases it.converged with
    | true => exact ⟨h.post p1, rfl, rfl⟩
    | false =>
      simp only [Bool.false_eq_true, if_false]
      have hstart : ∀ (s : GmSt K X Rl) (t : GmSt K Y Rl), GmRel R R.dual R.rhs 1 0 s t →
          GmRel R R.dual R.rhs 1 0 (fgmStart E s) (fgmStart F t) := by
        intro s t hs
        unfold fgmStart
        rw [hs.norm, h.ofReal]
        refine { hs with v := fun k hk => ?_, norm := rfl }
        have : k = 0 := by omega
        subst this
        dsimp only
        rw [upd, if_pos rfl, upd, if_pos rfl]
        exact h.dual_smul _ (hs.v 0 (by omega))
      have hrestart : ∀ (s : GmSt K X Rl) (t : GmSt K Y Rl), GmRel R R.dual R.rhs 1 0 s t →
          GmRel R R.dual R.rhs 1 0 (fgmRestart E s) (fgmRestart F t) := by
        intro s t hs
        have h1 := h.subRhs hs.x hs.b
        unfold fgmRestart
        dsimp only
        refine { hs with v := fun k hk => ?_, norm := h.norm (h.dual_any h1) }
        have : k = 0 := by omega
        subst this
        dsimp only
        rw [upd, if_pos rfl, upd, if_pos rfl]
        exact h1
      rcases gmOuter_sim h red maxit m (fun i s t => fgmStep_sim h i) hstart hrestart fuel 1
        (s := gmInit (E.pre x b).1 (E.pre x b).2 (E.subOp (E.pre x b).1 (E.pre x b).2) b
          (F.norm (F.subOp (F.pre y c).1 (F.pre y c).2)) 0)
        (t := gmInit (F.pre y c).1 (F.pre y c).2 (F.subOp (F.pre y c).1 (F.pre y c).2) c
          (F.norm (F.subOp (F.pre y c).1 (F.pre y c).2)) 0)
        ⟨p1, p2, fun k hk => by
          have : k = 0 := by omega
          subst this; exact hr, fun k hk => absurd hk (by omega), rfl, rfl, rfl, rfl, rfl, rfl⟩ it with ⟨h1, h2⟩ | ⟨s', t', r, h1, h2, h3⟩
      · rw [h1, h2]; trivial
      · rw [h1, h2]; exact gmExit_sim h h3 r

end Gmres

section Flexible
variable [Zero K] [One K] [Neg K] [Mul K] [Div K] [Zero Rl] [Mul Rl]

/-- Corresponding states of the generalised PCG solver. -/
structure GpRel (R : Rel X Y) (s : GpSt K X Rl) (t : GpSt K Y Rl) : Prop where
  x : R.primal s.x t.x
  b : R.dual s.b t.b
  p : ∀ k, R.primal (s.p k) (t.p k)
  pp : s.pp = t.pp
  d : s.d = t.d

theorem gpMinimise_sim (h : Sim R E F) (ii : Nat) {s : GpSt K X Rl} {t : GpSt K Y Rl} (hs : GpRel R s t) :
    GpRel R (gpMinimise E ii s) (gpMinimise F ii t) := by
  have hq := h.op (hs.p ii)
  unfold gpMinimise
  dsimp only
  rw [h.dot (h.primal_any (hs.p ii)) (h.dual_any hs.b), h.dot (h.primal_any (hs.p ii)) (h.dual_any hq), hs.pp]
  have hb := fun a => h.dual_add hs.b (h.dual_smul a hq)
  exact ⟨h.primal_add hs.x (h.primal_smul _ (hs.p ii)), hb _, hs.p, rfl, h.norm (h.dual_any (hb _))⟩

theorem gpDirection_sim (h : Sim R E F) (k ii : Nat) {s : GpSt K X Rl} {t : GpSt K Y Rl} (hs : GpRel R s t) :
    GpRel R (gpDirection E k ii s) (gpDirection F k ii t) := by
  have hr := h.prec k hs.b
  have hq := h.op hr
  unfold gpDirection
  dsimp only
  refine { hs with p := upd_rel hs.p ii ?_ }
  unfold forRange
  generalize List.range ii = L
  have hall : ∀ (L : List Nat) (w : X) (w' : Y), R.primal w w' →
      R.primal (L.foldl (fun pi j => pi + (-(E.dot (E.op (E.prec k s.b)) (s.p j) / s.pp j)) • s.p j) w)
        (L.foldl (fun pi j => pi + (-(F.dot (F.op (F.prec k t.b)) (t.p j) / t.pp j)) • t.p j) w') := by
    intro L
    induction L with
    | nil => intro w w' hw; exact hw
    | cons j L ih =>
      intro w w' hw
      refine ih _ _ ?_
      dsimp only
      rw [h.dot (h.dual_any hq) (h.primal_any (hs.p j)), hs.pp]
      exact h.primal_add hw (h.primal_smul _ (hs.p j))
  exact hall L _ _ hr

theorem gpInner_sim (h : Sim R E F) (red : Rl) (n ii i : Nat) {s : GpSt K X Rl} {t : GpSt K Y Rl} (hs : GpRel R s t) (it : It Rl) :
    GpRel R (gpInner E red n ii i s it).1 (gpInner F red n ii i t it).1 ∧ (gpInner E red n ii i s it).2 = (gpInner F red n ii i t it).2 := by
  induction n generalizing ii i s t it with
  | zero => exact ⟨hs, rfl⟩
  | succ n ih =>
    have h1 := gpMinimise_sim h ii (gpDirection_sim h i ii hs)
    unfold gpInner
    dsimp only
    rw [step_sim h, h1.d]
    cases it.step F red (i + 1) (gpMinimise F ii (gpDirection F i ii t)).d with
    | none => exact ⟨h1, rfl⟩
    | some it => exact ih (ii + 1) (i + 1) h1 it

theorem gpOuter_sim (h : Sim R E F) (red : Rl) (maxit restart fuel i : Nat) {s : GpSt K X Rl} {t : GpSt K Y Rl} (hs : GpRel R s t) (it : It Rl) :
    (gpOuter E red maxit restart fuel i s it = none ∧ gpOuter F red maxit restart fuel i t it = none) ∨
    ∃ s' t' r, gpOuter E red maxit restart fuel i s it = some (s', r) ∧ gpOuter F red maxit restart fuel i t it = some (t', r) ∧ GpRel R s' t' := by
  induction fuel generalizing i s t it with
  | zero =>
    unfold gpOuter
    by_cases c : i < maxit
    · rw [if_pos c, if_pos c]; exact .inl ⟨rfl, rfl⟩
    · rw [if_neg c, if_neg c]; exact .inr ⟨_, _, _, rfl, rfl, hs⟩
  | succ fuel ih =>
    unfold gpOuter
    by_cases c : i < maxit
    · rw [if_pos c, if_pos c]
      dsimp only
      obtain ⟨i1, i2⟩ := gpInner_sim h red (min restart (maxit - i + 1) - 1) 1 i hs it
      rw [i2]
      generalize gpInner E red (min restart (maxit - i + 1) - 1) 1 i s it = rE at i1 ⊢
      generalize gpInner F red (min restart (maxit - i + 1) - 1) 1 i t it = rF at i1 ⊢
      obtain ⟨sF, itF, iF, eF⟩ := rF
      dsimp only at i1 ⊢
      cases eF with
      | some e => exact .inr ⟨_, _, _, rfl, rfl, i1⟩
      | none =>
        dsimp only
        by_cases cc : itF.converged = true
        · rw [if_pos cc, if_pos cc]; exact .inr ⟨_, _, _, rfl, rfl, i1⟩
        · rw [if_neg cc, if_neg cc]
          refine ih iF ?_ itF
          by_cases ce : min restart (maxit - i + 1) = restart
          · rw [if_pos ce, if_pos ce]
            exact { i1 with p := upd_rel i1.p 0 (i1.p _), pp := by dsimp only; rw [i1.pp] }
          · rw [if_neg ce, if_neg ce]; exact i1
    · rw [if_neg c, if_neg c]; exact .inr ⟨_, _, _, rfl, rfl, hs⟩

theorem gp_sim (h : Sim R E F) (red : Rl) (maxit restart fuel : Nat) {x b : X} {y c : Y} (h0 : R.start x y) (hb : R.rhs b c) :
    SameRun R (gpApply E red maxit restart fuel x b) (gpApply F red maxit restart fuel y c) := by
  obtain ⟨p1, p2⟩ := h.pre h0 hb
  have hr := h.subRhs p1 p2
  unfold gpApply
  dsimp only
  rw [step_sim h, h.norm (h.dual_any hr)]
  cases It.start.step F red 0 (F.norm (F.subOp (F.pre y c).1 (F.pre y c).2)) with
  | none => exact ⟨p1, rfl, rfl⟩
  | some it =>
    dsimp only
    cases it.converged with
    | true => exact ⟨h.post p1, rfl, rfl⟩
    | false =>
      simp only [Bool.false_eq_true, if_false]
      have hm := gpMinimise_sim h 0
        (s := { x := (E.pre x b).1, b := E.subOp (E.pre x b).1 (E.pre x b).2, p := fun _ => E.prec 0 (E.subOp (E.pre x b).1 (E.pre x b).2),
                pp := fun _ => 0, d := F.norm (F.subOp (F.pre y c).1 (F.pre y c).2) })
        (t := { x := (F.pre y c).1, b := F.subOp (F.pre y c).1 (F.pre y c).2, p := fun _ => F.prec 0 (F.subOp (F.pre y c).1 (F.pre y c).2),
                pp := fun _ => 0, d := F.norm (F.subOp (F.pre y c).1 (F.pre y c).2) })
        ⟨p1, hr, fun _ => h.prec 0 hr, rfl, rfl⟩
      revert hm
      generalize gpMinimise E 0 { x := (E.pre x b).1, b := E.subOp (E.pre x b).1 (E.pre x b).2, p := fun _ => E.prec 0 (E.subOp (E.pre x b).1 (E.pre x b).2), pp := fun _ => (0 : K), d := F.norm (F.subOp (F.pre y c).1 (F.pre y c).2) } = s
      generalize gpMinimise F 0 { x := (F.pre y c).1, b := F.subOp (F.pre y c).1 (F.pre y c).2, p := fun _ => F.prec 0 (F.subOp (F.pre y c).1 (F.pre y c).2), pp := fun _ => (0 : K), d := F.norm (F.subOp (F.pre y c).1 (F.pre y c).2) } = t
      intro hm
      rw [step_sim h, hm.d]
      cases it.step F red 1 t.d with
      | none => exact ⟨hm.x, rfl, rfl⟩
      | some it =>
        dsimp only
        cases it.converged with
        | true => exact ⟨h.post hm.x, rfl, rfl⟩
        | false =>
          simp only [Bool.false_eq_true, if_false]
          rcases gpOuter_sim h red maxit restart fuel 1 hm it with ⟨h1, h2⟩ | ⟨s', t', r, h1, h2, h3⟩
          · rw [h1, h2]; trivial
          · rw [h1, h2]
            obtain ⟨itr, e⟩ := r
            cases e with
            | none => exact ⟨h.post h3.x, rfl, rfl⟩
            | some e => exact ⟨h3.x, rfl, rfl⟩

/-- Corresponding states of the flexible CG solvers. The vectors `A d` are only used in scalar products. -/
structure FcRel (R : Rel X Y) (s : FcSt K X Rl) (t : FcSt K Y Rl) : Prop where
  x : R.primal s.x t.x
  b : R.dual s.b t.b
  d : ∀ k, R.primal (s.d k) (t.d k)
  ad : ∀ k, R.any (s.ad k) (t.ad k)
  dad : s.dad = t.dad
  lim : s.lim = t.lim
  def' : s.def' = t.def'

theorem fcOrth_fold (h : Sim R E F) {s : FcSt K X Rl} {t : FcSt K Y Rl} (hs : FcRel R s t) (ib : Nat) {w : X} {w' : Y} (hw : R.primal w w')
    (skip : Nat → Bool) (L : List Nat) (d : Nat → X) (d' : Nat → Y) (hd : ∀ k, R.primal (d k) (d' k)) :
    ∀ k, R.primal (L.foldl (fun d k => if skip k then d else upd d ib (d ib + (-(E.dot (s.ad k) w / s.dad k)) • d k)) d k)
      (L.foldl (fun d k => if skip k then d else upd d ib (d ib + (-(F.dot (t.ad k) w' / t.dad k)) • d k)) d' k) := by
  induction L generalizing d d' with
  | nil => exact hd
  | cons j L ih =>
    rw [List.foldl_cons, List.foldl_cons]
    refine ih _ _ ?_
    cases skip j with
    | true => exact hd
    | false =>
      simp only [Bool.false_eq_true, if_false]
      rw [h.dot (hs.ad j) (h.primal_any hw), hs.dad]
      exact upd_rel hd ib (h.primal_add (hd ib) (h.primal_smul _ (hd j)))

theorem fcOrthRestarted_sim (h : Sim R E F) (ib : Nat) {w : X} {w' : Y} (hw : R.primal w w') {s : FcSt K X Rl} {t : FcSt K Y Rl}
    (hs : FcRel R s t) : FcRel R (fcOrthRestarted E ib w s) (fcOrthRestarted F ib w' t) :=
  { hs with d := fcOrth_fold h hs ib hw (fun _ => false) (List.range ib) s.d t.d hs.d }

theorem fcOrthComplete_sim (h : Sim R E F) (ib : Nat) {w : X} {w' : Y} (hw : R.primal w w') {s : FcSt K X Rl} {t : FcSt K Y Rl}
    (hs : FcRel R s t) : FcRel R (fcOrthComplete E ib w s) (fcOrthComplete F ib w' t) := by
  have hd := fcOrth_fold h hs ib hw (fun k => decide (ib = k)) (List.range s.lim) s.d t.d hs.d
  have e1 : (fcOrthComplete E ib w s).d = (List.range s.lim).foldl (fun d k => if decide (ib = k) then d else
      upd d ib (d ib + (-(E.dot (s.ad k) w / s.dad k)) • d k)) s.d := by
    unfold fcOrthComplete forRange
    dsimp only
    congr 1
    funext d k
    by_cases hk : ib = k <;> simp [hk]
  have e2 : (fcOrthComplete F ib w' t).d = (List.range s.lim).foldl (fun d k => if decide (ib = k) then d else
      upd d ib (d ib + (-(F.dot (t.ad k) w' / t.dad k)) • d k)) t.d := by
    unfold fcOrthComplete forRange
    dsimp only
    rw [hs.lim]
    congr 1
    funext d k
    by_cases hk : ib = k <;> simp [hk]
  refine ⟨hs.x, hs.b, fun k => ?_, hs.ad, hs.dad, ?_, hs.def'⟩
  · rw [e1, e2]; exact hd k
  · unfold fcOrthComplete
    dsimp only
    rw [hs.lim]

theorem fcStep_sim (h : Sim R E F) {orth : Nat → X → FcSt K X Rl → FcSt K X Rl} {orth' : Nat → Y → FcSt K Y Rl → FcSt K Y Rl}
    (horth : ∀ ib w w' s t, R.primal w w' → FcRel R s t → FcRel R (orth ib w s) (orth' ib w' t)) (i ib : Nat) {s : FcSt K X Rl} {t : FcSt K Y Rl}
    (hs : FcRel R s t) : FcRel R (fcStep E orth i ib s) (fcStep F orth' i ib t) := by
  have hw := h.prec (i - 1) hs.b
  have h1 := horth ib _ _ { s with d := upd s.d ib (E.prec (i - 1) s.b) } { t with d := upd t.d ib (F.prec (i - 1) t.b) } hw
    { hs with d := upd_rel hs.d ib hw }
  unfold fcStep
  dsimp only
  revert h1
  generalize orth ib (E.prec (i - 1) s.b) { s with d := upd s.d ib (E.prec (i - 1) s.b) } = s'
  generalize orth' ib (F.prec (i - 1) t.b) { t with d := upd t.d ib (F.prec (i - 1) t.b) } = t'
  intro h1
  have ha := h.op (h1.d ib)
  rw [h.dot (h.primal_any (h1.d ib)) (h.dual_any h1.b), h.dot (h.primal_any (h1.d ib)) (h.dual_any ha), h1.dad]
  have hb := fun a => h.dual_add h1.b (h.dual_smul a ha)
  exact ⟨h.primal_add h1.x (h.primal_smul _ (h1.d ib)), hb _, h1.d, upd_rel h1.ad ib (h.dual_any ha), rfl, h1.lim, h.norm (h.dual_any (hb _))⟩

theorem fcInner_sim (h : Sim R E F) {orth : Nat → X → FcSt K X Rl → FcSt K X Rl} {orth' : Nat → Y → FcSt K Y Rl → FcSt K Y Rl}
    (horth : ∀ ib w w' s t, R.primal w w' → FcRel R s t → FcRel R (orth ib w s) (orth' ib w' t)) (red : Rl) (mmax n i ib : Nat)
    {s : FcSt K X Rl} {t : FcSt K Y Rl} (hs : FcRel R s t) (it : It Rl) :
    FcRel R (fcInner E red mmax orth n i ib s it).1 (fcInner F red mmax orth' n i ib t it).1 ∧
      (fcInner E red mmax orth n i ib s it).2 = (fcInner F red mmax orth' n i ib t it).2 := by
  induction n generalizing i ib s t it with
  | zero => exact ⟨hs, rfl⟩
  | succ n ih =>
    unfold fcInner
    by_cases c : ib ≤ mmax
    · rw [if_pos c, if_pos c]
      have h1 := fcStep_sim h horth i ib hs
      dsimp only
      rw [step_sim h, h1.def']
      cases it.step F red i (fcStep F orth' i ib t).def' with
      | none => exact ⟨h1, rfl⟩
      | some it => exact ih (i + 1) (ib + 1) h1 it
    · rw [if_neg c, if_neg c]; exact ⟨hs, rfl⟩

theorem fcOuter_sim (h : Sim R E F) {orth : Nat → X → FcSt K X Rl → FcSt K X Rl} {orth' : Nat → Y → FcSt K Y Rl → FcSt K Y Rl}
    (horth : ∀ ib w w' s t, R.primal w w' → FcRel R s t → FcRel R (orth ib w s) (orth' ib w' t))
    {cycle : FcSt K X Rl → Nat × FcSt K X Rl} {cycle' : FcSt K Y Rl → Nat × FcSt K Y Rl}
    (hcycle : ∀ s t, FcRel R s t → (cycle s).1 = (cycle' t).1 ∧ FcRel R (cycle s).2 (cycle' t).2) (red : Rl) (maxit mmax fuel i ib : Nat)
    {s : FcSt K X Rl} {t : FcSt K Y Rl} (hs : FcRel R s t) (it : It Rl) :
    (fcOuter E red maxit mmax orth cycle fuel i ib s it = none ∧ fcOuter F red maxit mmax orth' cycle' fuel i ib t it = none) ∨
    ∃ s' t' r, fcOuter E red maxit mmax orth cycle fuel i ib s it = some (s', r) ∧
      fcOuter F red maxit mmax orth' cycle' fuel i ib t it = some (t', r) ∧ FcRel R s' t' := by
  induction fuel generalizing i ib s t it with
  | zero =>
    unfold fcOuter
    by_cases c : i ≤ maxit ∧ it.converged = false
    · rw [if_pos c, if_pos c]; exact .inl ⟨rfl, rfl⟩
    · rw [if_neg c, if_neg c]; exact .inr ⟨_, _, _, rfl, rfl, hs⟩
  | succ fuel ih =>
    unfold fcOuter
    by_cases c : i ≤ maxit ∧ it.converged = false
    · rw [if_pos c, if_pos c]
      dsimp only
      obtain ⟨i1, i2⟩ := fcInner_sim h horth red mmax (maxit + 1 - i) i ib hs it
      rw [i2]
      generalize fcInner E red mmax orth (maxit + 1 - i) i ib s it = rE at i1 ⊢
      generalize fcInner F red mmax orth' (maxit + 1 - i) i ib t it = rF at i1 ⊢
      obtain ⟨sF, itF, iF, jF, eF⟩ := rF
      dsimp only at i1 ⊢
      cases eF with
      | some e => exact .inr ⟨_, _, _, rfl, rfl, i1⟩
      | none =>
        dsimp only
        obtain ⟨c1, c2⟩ := hcycle _ _ i1
        rw [c1]
        exact ih _ _ c2 itF
    · rw [if_neg c, if_neg c]; exact .inr ⟨_, _, _, rfl, rfl, hs⟩

theorem fc_sim (h : Sim R E F) {orth : Nat → X → FcSt K X Rl → FcSt K X Rl} {orth' : Nat → Y → FcSt K Y Rl → FcSt K Y Rl}
    (horth : ∀ ib w w' s t, R.primal w w' → FcRel R s t → FcRel R (orth ib w s) (orth' ib w' t))
    {cycle : FcSt K X Rl → Nat × FcSt K X Rl} {cycle' : FcSt K Y Rl → Nat × FcSt K Y Rl}
    (hcycle : ∀ s t, FcRel R s t → (cycle s).1 = (cycle' t).1 ∧ FcRel R (cycle s).2 (cycle' t).2) (red : Rl) (maxit mmax fuel : Nat)
    {x b : X} {y c : Y} (h0 : R.start x y) (hb : R.rhs b c) :
    SameRun R (fcApply E orth cycle red maxit mmax fuel x b) (fcApply F orth' cycle' red maxit mmax fuel y c) := by
  obtain ⟨p1, p2⟩ := h.pre h0 hb
  have hr := h.subRhs p1 p2
  unfold fcApply
  dsimp only
  rw [step_sim h, h.norm (h.dual_any hr)]
  cases It.start.step F red 0 (F.norm (F.subOp (F.pre y c).1 (F.pre y c).2)) with
  | none => exact ⟨p1, rfl, rfl⟩
  | some it =>
    dsimp only
    cases it.converged with
    | true => exact ⟨h.post p1, rfl, rfl⟩
    | false =>
      simp only [Bool.false_eq_true, if_false]
      rcases fcOuter_sim h horth hcycle red maxit mmax fuel 1 0
        (s := { x := (E.pre x b).1, b := E.subOp (E.pre x b).1 (E.pre x b).2, d := fun _ => (E.pre x b).1, ad := fun _ => (E.pre x b).1,
                dad := fun _ => (0 : K), lim := 0, def' := F.norm (F.subOp (F.pre y c).1 (F.pre y c).2) })
        (t := { x := (F.pre y c).1, b := F.subOp (F.pre y c).1 (F.pre y c).2, d := fun _ => (F.pre y c).1, ad := fun _ => (F.pre y c).1,
                dad := fun _ => (0 : K), lim := 0, def' := F.norm (F.subOp (F.pre y c).1 (F.pre y c).2) })
        ⟨p1, hr, fun _ => p1, fun _ => h.primal_any p1, rfl, rfl, rfl⟩ it with ⟨h1, h2⟩ | ⟨s', t', r, h1, h2, h3⟩
      · rw [h1, h2]; trivial
      · rw [h1, h2]
        obtain ⟨itr, e⟩ := r
        cases e with
        | none => exact ⟨h.post h3.x, rfl, rfl⟩
        | some e => exact ⟨h3.x, rfl, rfl⟩

theorem rfcg_sim (h : Sim R E F) (red : Rl) (maxit mmax fuel : Nat) {x b : X} {y c : Y} (h0 : R.start x y) (hb : R.rhs b c) :
    SameRun R (rfcgApply E red maxit mmax fuel x b) (rfcgApply F red maxit mmax fuel y c) := by
  refine fc_sim h (fun ib w w' s t hw hs => fcOrthRestarted_sim h ib hw hs) (fun s t hs => ⟨rfl, ?_⟩) red maxit mmax fuel h0 hb
  unfold fcCycleRestarted
  exact { hs with d := upd_rel (upd_rel hs.d 0 (hs.d _)) _ (hs.d 0), ad := upd_rel (upd_rel hs.ad 0 (hs.ad _)) _ (hs.ad 0),
                  dad := by dsimp only; rw [hs.dad] }

theorem cfcg_sim (h : Sim R E F) (red : Rl) (maxit mmax fuel : Nat) {x b : X} {y c : Y} (h0 : R.start x y) (hb : R.rhs b c) :
    SameRun R (cfcgApply E red maxit mmax fuel x b) (cfcgApply F red maxit mmax fuel y c) := by
  refine fc_sim h (fun ib w w' s t hw hs => fcOrthComplete_sim h ib hw hs) (fun s t hs => ⟨rfl, ?_⟩) red maxit mmax fuel h0 hb
  exact { hs with lim := rfl }

end Flexible
end Solver
end Istl
