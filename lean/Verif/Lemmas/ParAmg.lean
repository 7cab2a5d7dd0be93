import Verif.Lemmas.AmgCycle2
import Verif.Model.ParAmg

/-! A distributed cycle whose parts represent those of a sequential one computes the same. -/

namespace Istl
namespace Amg
variable {K X Y : Type} [AddCommGroup X] [AddCommGroup Y] [SMul K X] [SMul K Y]

/-- The parts of `T` represent those of `S`; `pr l`, `du l` relate primal and dual vectors of level `l`. -/
structure Simul (T : ParSetup K X) (S : Setup K Y) (pr du : Nat → X → Y → Prop) : Prop where
  coarsest : T.coarsest = S.coarsest
  damp : T.damp = S.damp
  preSteps : T.preSteps = S.preSteps
  postSteps : T.postSteps = S.postSteps
  gamma : T.gamma = S.gamma
  zero : ∀ l, pr l 0 0
  add : ∀ l x y x' y', pr l x x' → pr l y y' → pr l (x + y) (x' + y')
  smul : ∀ l x x', pr l x x' → pr l (T.damp • x) (S.damp • x')
  defect : ∀ l, l < S.coarsest → ∀ v r v' r', pr l v v' → du l r r' → du l (T.defect l v r) (r' - S.mat l v')
  proj : ∀ l, l < S.coarsest → ∀ r r', du l r r' → du l (T.proj l r) r'
  pre : ∀ l, l < S.coarsest → ∀ d d', du l d d' → pr l (T.pre l 0 d) (S.pre l 0 d')
  post : ∀ l, l < S.coarsest → ∀ d d', du l d d' → pr l (T.post l 0 d) (S.post l 0 d')
  restr : ∀ l, l < S.coarsest → ∀ d d', du l d d' → du (l + 1) (T.restr l d) (S.restr l d')
  prol : ∀ l, l < S.coarsest → ∀ v c c', pr (l + 1) c c' → pr l (T.prol l v c) (S.prol l c')
  solve : ∀ u r u' r', pr S.coarsest u u' → du S.coarsest r r' →
    pr S.coarsest (T.solve u r).1 (S.solve u' r').1 ∧ (T.solve u r).2.2 = (S.solve u' r').2.2
  copyAll : ∀ u u', pr 0 u u' → pr 0 (T.copyAll u) u'

/-- Related states on level `l`: all finer levels, and on level `l` the vectors named by the flags. -/
def RelAt (L : Nat) (pr du : Nat → X → Y → Prop) (l : Nat) (a b c : Prop) (s : State X) (t : State Y) : Prop :=
  ∃ f g h f' g' h' cv, s = mkS L (curAt L l) f g h cv ∧ t = mkS L (curAt L l) f' g' h' cv ∧
    (∀ i, i < l → pr i (g i) (g' i) ∧ du i (h i) (h' i)) ∧ (a → pr l (f l) (f' l)) ∧ (b → pr l (g l) (g' l)) ∧ (c → du l (h l) (h' l))

/-- Both calls end the same way, in related states. -/
def Both {α β : Type} (Q : α → β → State X → State Y → Prop) (x : Out (State X) α) (y : Out (State Y) β) : Prop :=
  (∃ a b s t, x = .ok a s ∧ y = .ok b t ∧ Q a b s t) ∨ ∃ s t, x = .throw .mathError s ∧ y = .throw .mathError t ∧ s.conv = false ∧ t.conv = false

theorem Both.bind {α β γ δ : Type} {Q : α → β → State X → State Y → Prop} {R : γ → δ → State X → State Y → Prop} {x : MG X α} {y : MG Y β}
    {k : α → MG X γ} {m : β → MG Y δ} {s : State X} {t : State Y} (h : Both Q (x s) (y t))
    (hk : ∀ a b s t, Q a b s t → Both R (k a s) (m b t)) : Both R ((x >>= k) s) ((y >>= m) t) := by
  rcases h with ⟨a, b, s', t', e1, e2, q⟩ | ⟨s', t', e1, e2, c1, c2⟩
  · rw [Cmd.bind_ok e1, Cmd.bind_ok e2]
    exact hk a b s' t' q
  · rw [Cmd.bind_throw e1, Cmd.bind_throw e2]
    exact .inr ⟨s', t', rfl, rfl, c1, c2⟩

section Steps
variable {T : ParSetup K X} {S : Setup K Y} {pr du : Nat → X → Y → Prop} (hS : Simul T S pr du)

omit hS in
theorem pDefect_mk (T : ParSetup K X) {L : Nat} {c : Cursor} {f g h : Nat → X} {cv : Bool} (hc : c.lhs ≤ L) (hc' : c.rhs ≤ L) :
    pDefect T (mkS L c f g h cv) = .ok () (mkS L c f g (Function.update h c.rhs (T.defect c.matrix (f c.lhs) (h c.rhs))) cv) := by
  unfold pDefect
  rw [Cmd.bind_ok (Cmd.get_apply _), Cmd.bind_ok (getLhs_mk hc), Cmd.bind_ok (getRhs_mk hc'), setRhs_mk hc']
  rfl

omit hS in
theorem pProject_mk (T : ParSetup K X) {L : Nat} {c : Cursor} {f g h : Nat → X} {cv : Bool} (hc' : c.rhs ≤ L) :
    pProject T (mkS L c f g h cv) = .ok () (mkS L c f g (Function.update h c.rhs (T.proj c.matrix (h c.rhs))) cv) := by
  unfold pProject
  rw [Cmd.bind_ok (Cmd.get_apply _), Cmd.bind_ok (getRhs_mk hc'), setRhs_mk hc']
  rfl

omit hS in
theorem pPreStep_mk (T : ParSetup K X) {L l : Nat} {f g h : Nat → X} {cv : Bool} (hl : l < L) :
    pPreStep T (mkS L (curAt L l) f g h cv) =
      .ok () (mkS L (curAt L l) (Function.update f l (T.pre l 0 (h l))) (Function.update g l (g l + T.pre l 0 (h l)))
        (Function.update h l (T.proj l (T.defect l (T.pre l 0 (h l)) (h l)))) cv) := by
  have h1 : (curAt L l).lhs ≤ L := by simp only [curAt]; omega
  have h2 : (curAt L l).update ≤ L := by simp only [curAt]; omega
  have h3 : (curAt L l).rhs ≤ L := by simp only [curAt]; omega
  have e1 : (curAt L l).lhs = l := rfl
  have e2 : (curAt L l).update = l := rfl
  have e3 : (curAt L l).rhs = l := rfl
  have e4 : (curAt L l).matrix = l := rfl
  have e5 : (curAt L l).smoother = l := by simp only [curAt]; omega
  unfold pPreStep
  rw [Cmd.bind_ok (setLhs_mk h1), Cmd.bind_ok (Cmd.get_apply _), Cmd.bind_ok (getLhs_mk h1), Cmd.bind_ok (getRhs_mk h3)]
  rw [Cmd.bind_ok (setLhs_mk h1), Cmd.bind_ok (addLhs_mk h1 h2), Cmd.bind_ok (pDefect_mk T h1 h3), pProject_mk T h3]
  simp only [mkS_cur, e1, e2, e3, e4, e5, Function.update_self, Function.update_idem]

omit hS in
theorem pPostStep_mk (T : ParSetup K X) {L l : Nat} {f g h : Nat → X} {cv : Bool} (hl : l < L) :
    pPostStep T (mkS L (curAt L l) f g h cv) =
      .ok () (mkS L (curAt L l) (Function.update f l (T.post l 0 (T.proj l (T.defect l (f l) (h l)))))
        (Function.update g l (g l + T.post l 0 (T.proj l (T.defect l (f l) (h l)))))
        (Function.update h l (T.proj l (T.defect l (f l) (h l)))) cv) := by
  have h1 : (curAt L l).lhs ≤ L := by simp only [curAt]; omega
  have h2 : (curAt L l).update ≤ L := by simp only [curAt]; omega
  have h3 : (curAt L l).rhs ≤ L := by simp only [curAt]; omega
  have e1 : (curAt L l).lhs = l := rfl
  have e2 : (curAt L l).update = l := rfl
  have e3 : (curAt L l).rhs = l := rfl
  have e4 : (curAt L l).matrix = l := rfl
  have e5 : (curAt L l).smoother = l := by simp only [curAt]; omega
  unfold pPostStep
  rw [Cmd.bind_ok (pDefect_mk T h1 h3), Cmd.bind_ok (setLhs_mk h1), Cmd.bind_ok (pProject_mk T h3), Cmd.bind_ok (Cmd.get_apply _),
    Cmd.bind_ok (getLhs_mk h1), Cmd.bind_ok (getRhs_mk h3)]
  rw [Cmd.bind_ok (setLhs_mk h1), addLhs_mk h1 h2]
  simp only [mkS_cur, e1, e2, e3, e4, e5, Function.update_self, Function.update_idem]

omit hS in
theorem pMoveToCoarse_mk (T : ParSetup K X) {l : Nat} (hl : l < T.coarsest) (f g h : Nat → X) (cv : Bool) :
    pMoveToCoarse T (mkS T.coarsest (curAt T.coarsest l) f g h cv) = .ok () (mkS T.coarsest (curAt T.coarsest (l + 1)) f
      (Function.update g (l + 1) 0) (Function.update h (l + 1) (T.restr l (h l))) cv) :=
  moveToCoarse_mk (⟨T.coarsest, fun _ => id, T.pre, T.post, T.restr, fun _ => id, T.solve, T.damp, 0, 0, 0⟩ : Setup K X) hl f g h cv

omit hS in
theorem pMoveToFine_mk (T : ParSetup K X) {l : Nat} (hl : l < T.coarsest) (f g h : Nat → X) (cv : Bool) :
    ∃ g', (∀ i, i ≠ l + 1 → i ≠ l → g' i = g i) ∧ g' l = g l + T.prol l (f l) (T.damp • g (l + 1)) ∧
    pMoveToFine T (mkS T.coarsest (curAt T.coarsest (l + 1)) f g h cv) = .ok () (mkS T.coarsest (curAt T.coarsest l)
      (Function.update f l (T.prol l (f l) (T.damp • g (l + 1)))) g' h cv) := by
  refine ⟨Function.update (Function.update g (l + 1) (T.damp • g (l + 1))) l (g l + T.prol l (f l) (T.damp • g (l + 1))), ?_, ?_, ?_⟩
  · intro i h1 h2
    rw [Function.update_of_ne h2, Function.update_of_ne h1]
  · simp
  unfold pMoveToFine
  rw [Cmd.bind_ok (Cmd.modify_apply _ _), Cmd.bind_ok (Cmd.modify_apply _ _)]
  have hcur : (if (mkS T.coarsest (curAt T.coarsest (l + 1)) f g h cv).cur.matrix ≠ T.coarsest then
      { (mkS T.coarsest (curAt T.coarsest (l + 1)) f g h cv) with cur := { (mkS T.coarsest (curAt T.coarsest (l + 1)) f g h cv).cur with
        smoother := (mkS T.coarsest (curAt T.coarsest (l + 1)) f g h cv).cur.smoother - 1,
        aggregates := (mkS T.coarsest (curAt T.coarsest (l + 1)) f g h cv).cur.aggregates - 1 } }
      else (mkS T.coarsest (curAt T.coarsest (l + 1)) f g h cv)) = mkS T.coarsest ⟨l, l + 1, l, l + 1, l + 1, l + 1, l + 1⟩ f g h cv := by
    by_cases hc : l + 1 = T.coarsest
    · rw [if_neg (by simp only [mkS_cur, curAt]; omega)]
      have : curAt T.coarsest (l + 1) = ⟨l, l + 1, l, l + 1, l + 1, l + 1, l + 1⟩ := by
        have : min (l + 1) (T.coarsest - 1) = l := by omega
        simp [curAt, this]
      rw [this]
    · rw [if_pos (by simp only [mkS_cur, curAt]; omega), curAt_lt (by omega)]
      simp [mkS]
  rw [hcur]
  have c1 : ({ (mkS T.coarsest ⟨l, l + 1, l, l + 1, l + 1, l + 1, l + 1⟩ f g h cv) with
      cur := { (mkS T.coarsest ⟨l, l + 1, l, l + 1, l + 1, l + 1, l + 1⟩ f g h cv).cur with level := l + 1 - 1, matrix := l + 1 - 1, lhs := l + 1 - 1 } } : State X) =
    mkS T.coarsest ⟨l, l, l, l, l + 1, l + 1, l⟩ f g h cv := rfl
  refine Eq.trans (congrArg _ c1) ?_
  rw [Cmd.bind_ok (getUpd_mk (by dsimp only; omega)), Cmd.bind_ok (setUpd_mk (by dsimp only; omega)),
    Cmd.bind_ok (getUpd_mk (by dsimp only; omega)), Cmd.bind_ok (getLhs_mk (by dsimp only; omega)), Cmd.bind_ok (Cmd.get_apply _),
    Cmd.bind_ok (setLhs_mk (by dsimp only; omega)), Cmd.bind_ok (Cmd.modify_apply _ _)]
  rw [show ∀ f g h, ({ (mkS T.coarsest ⟨l, l, l, l, l + 1, l + 1, l⟩ f g h cv) with
      cur := { (mkS T.coarsest ⟨l, l, l, l, l + 1, l + 1, l⟩ f g h cv).cur with
        update := (mkS T.coarsest ⟨l, l, l, l, l + 1, l + 1, l⟩ f g h cv).cur.update - 1,
        rhs := (mkS T.coarsest ⟨l, l, l, l, l + 1, l + 1, l⟩ f g h cv).cur.rhs - 1 } } : State X) =
    mkS T.coarsest ⟨l, l, l, l, l, l, l⟩ f g h cv from fun _ _ _ => rfl]
  rw [addLhs_mk (by dsimp only; omega) (by dsimp only; omega), curAt_lt hl]
  simp only [mkS_cur, Function.update_self]
  rw [Function.update_of_ne (show l ≠ l + 1 by omega)]

include hS

theorem sim_pre {l : Nat} (hl : l < S.coarsest) {a : Prop} {s : State X} {t : State Y} (h : RelAt S.coarsest pr du l a True True s t) :
    Both (fun _ _ => RelAt S.coarsest pr du l True True True) (pPreStep T s) (preStep S t) := by
  obtain ⟨f, g, h, f', g', h', cv, rfl, rfl, low, _, hb, hc⟩ := h
  left
  have p := hS.pre l hl _ _ (hc trivial)
  refine ⟨_, _, _, _, pPreStep_mk T hl, preStep_mk S hl, _, _, _, _, _, _, cv, rfl, rfl, ?_, ?_, ?_, ?_⟩
  · intro i hi
    simp only [Function.update_of_ne (show i ≠ l by omega)]
    exact low i hi
  · intro _; simp only [Function.update_self]; exact p
  · intro _; simp only [Function.update_self]; exact hS.add l _ _ _ _ (hb trivial) p
  · intro _; simp only [Function.update_self]; exact hS.proj l hl _ _ (hS.defect l hl _ _ _ _ p (hc trivial))

theorem sim_post {l : Nat} (hl : l < S.coarsest) {s : State X} {t : State Y} (h : RelAt S.coarsest pr du l True True True s t) :
    Both (fun _ _ => RelAt S.coarsest pr du l True True True) (pPostStep T s) (postStep S t) := by
  obtain ⟨f, g, h, f', g', h', cv, rfl, rfl, low, ha, hb, hc⟩ := h
  left
  have q := hS.proj l hl _ _ (hS.defect l hl _ _ _ _ (ha trivial) (hc trivial))
  have p := hS.post l hl _ _ q
  refine ⟨_, _, _, _, pPostStep_mk T hl, postStep_mk S hl, _, _, _, _, _, _, cv, rfl, rfl, ?_, ?_, ?_, ?_⟩
  · intro i hi
    simp only [Function.update_of_ne (show i ≠ l by omega)]
    exact low i hi
  · intro _; simp only [Function.update_self]; exact p
  · intro _; simp only [Function.update_self]; exact hS.add l _ _ _ _ (hb trivial) p
  · intro _; simp only [Function.update_self]; exact q

omit hS in
theorem sim_times {c : MG X Unit} {d : MG Y Unit} {R : State X → State Y → Prop}
    (h : ∀ s t, R s t → Both (fun _ _ => R) (c s) (d t)) : ∀ (k : Nat) (s : State X) (t : State Y), R s t → Both (fun _ _ => R) (times c k s) (times d k t) := by
  intro k
  induction k with
  | zero => intro s t hr; exact .inl ⟨(), (), s, t, rfl, rfl, hr⟩
  | succ k ih => intro s t hr; exact (h s t hr).bind fun _ _ s t hr => ih s t hr

theorem sim_coarse {l : Nat} (hl : l < S.coarsest) {a : Prop} {s : State X} {t : State Y} (h : RelAt S.coarsest pr du l a True True s t) :
    Both (fun _ _ => RelAt S.coarsest pr du (l + 1) False True True) (pMoveToCoarse T s) (moveToCoarse S t) := by
  obtain ⟨f, g, h, f', g', h', cv, rfl, rfl, low, ha, hb, hc⟩ := h
  left
  have hl' := hl
  have e1 : pMoveToCoarse T _ = _ := pMoveToCoarse_mk T (l := l) (by rw [hS.coarsest]; exact hl) f g h cv
  rw [hS.coarsest] at e1
  refine ⟨_, _, _, _, e1, moveToCoarse_mk S hl f' g' h' cv, _, _, _, _, _, _, cv, rfl, rfl, ?_, False.elim, ?_, ?_⟩
  · intro i hi
    simp only [Function.update_of_ne (show i ≠ l + 1 by omega)]
    by_cases hil : i = l
    · rw [hil]; exact ⟨hb trivial, hc trivial⟩
    · exact low i (by omega)
  · intro _; simp only [Function.update_self]; exact hS.zero _
  · intro _; simp only [Function.update_self]; exact hS.restr l hl _ _ (hc trivial)

theorem sim_fine {l : Nat} (hl : l < S.coarsest) {a c : Prop} {s : State X} {t : State Y} (h : RelAt S.coarsest pr du (l + 1) a True c s t) :
    Both (fun _ _ => RelAt S.coarsest pr du l True True True) (pMoveToFine T s) (moveToFine S t) := by
  obtain ⟨f, g, h, f', g', h', cv, rfl, rfl, low, ha, hb, hc⟩ := h
  left
  obtain ⟨k, k1, k2, e1⟩ := pMoveToFine_mk T (l := l) (by rw [hS.coarsest]; exact hl) f g h cv
  rw [hS.coarsest] at e1
  obtain ⟨k', k1', k2', e2⟩ := moveToFine_mk S hl f' g' h' cv
  have p := hS.prol l hl (f l) _ _ (hS.smul (l + 1) _ _ (hb trivial))
  have hll := low l (by omega)
  refine ⟨_, _, _, _, e1, e2, _, _, _, _, _, _, cv, rfl, rfl, ?_, ?_, ?_, ?_⟩
  · intro i hi
    rw [k1 i (by omega) (by omega), k1' i (by omega) (by omega)]
    exact low i (by omega)
  · intro _; simp only [Function.update_self]; exact p
  · intro _; rw [k2, k2']; exact hS.add l _ _ _ _ hll.1 p
  · intro _; exact hll.2

theorem sim_solve {s : State X} {t : State Y} (h : RelAt S.coarsest pr du S.coarsest False True True s t) :
    Both (fun _ _ => RelAt S.coarsest pr du S.coarsest False True False) (pCoarseSolve T s) (coarseSolve S t) := by
  obtain ⟨f, g, h, f', g', h', cv, rfl, rfl, low, ha, hb, hc⟩ := h
  left
  have h2 : (curAt S.coarsest S.coarsest).update ≤ S.coarsest := le_refl _
  have h3 : (curAt S.coarsest S.coarsest).rhs ≤ S.coarsest := le_refl _
  have c2 : (curAt S.coarsest S.coarsest).update = S.coarsest := rfl
  have c3 : (curAt S.coarsest S.coarsest).rhs = S.coarsest := rfl
  obtain ⟨q1, q2⟩ := hS.solve _ _ _ _ (hb trivial) (hc trivial)
  unfold pCoarseSolve coarseSolve
  rw [Cmd.bind_ok (getUpd_mk h2), Cmd.bind_ok (getRhs_mk h3), Cmd.bind_ok (setUpd_mk h2), Cmd.bind_ok (setRhs_mk h3)]
  rw [Cmd.bind_ok (getUpd_mk h2), Cmd.bind_ok (getRhs_mk h3), Cmd.bind_ok (setUpd_mk h2), Cmd.bind_ok (setRhs_mk h3)]
  rw [c2, c3, q2]
  have fin : ∀ cv', RelAt S.coarsest pr du S.coarsest False True False
      (mkS S.coarsest (curAt S.coarsest S.coarsest) f (Function.update g S.coarsest (T.solve (g S.coarsest) (h S.coarsest)).1)
        (Function.update h S.coarsest (T.solve (g S.coarsest) (h S.coarsest)).2.1) cv')
      (mkS S.coarsest (curAt S.coarsest S.coarsest) f' (Function.update g' S.coarsest (S.solve (g' S.coarsest) (h' S.coarsest)).1)
        (Function.update h' S.coarsest (S.solve (g' S.coarsest) (h' S.coarsest)).2.1) cv') := by
    intro cv'
    refine ⟨_, _, _, _, _, _, cv', rfl, rfl, ?_, False.elim, ?_, False.elim⟩
    · intro i hi
      simp only [Function.update_of_ne (show i ≠ S.coarsest by omega)]
      exact low i hi
    · intro _; simp only [Function.update_self]; exact q1
  by_cases hcv : (S.solve (g' S.coarsest) (h' S.coarsest)).2.2 = false
  · rw [if_pos hcv, if_pos hcv]
    exact ⟨_, _, _, _, rfl, rfl, fin false⟩
  · rw [if_neg hcv, if_neg hcv]
    exact ⟨_, _, _, _, rfl, rfl, fin cv⟩

/-- what the cycle on level `l` with `d` coarser levels preserves -/
def MgcSim (T : ParSetup K X) (S : Setup K Y) (pr du : Nat → X → Y → Prop) (d l : Nat) : Prop :=
  ∀ s t, RelAt S.coarsest pr du l False True True s t →
    Both (fun _ _ => RelAt S.coarsest pr du l (0 < d) True (0 < d)) (pMgc T (d + 1) s) (mgc S (d + 1) t)

omit hS in
theorem RelAt.mono {L l : Nat} {a b c a' b' c' : Prop} {s : State X} {t : State Y} (ha : a' → a) (hb : b' → b) (hc : c' → c)
    (h : RelAt L pr du l a b c s t) : RelAt L pr du l a' b' c' s t := by
  obtain ⟨f, g, h, f', g', h', cv, e1, e2, low, h1, h2, h3⟩ := h
  exact ⟨f, g, h, f', g', h', cv, e1, e2, low, fun x => h1 (ha x), fun x => h2 (hb x), fun x => h3 (hc x)⟩

omit hS in
theorem Both.imp {α β : Type} {Q R : α → β → State X → State Y → Prop} {x : Out (State X) α} {y : Out (State Y) β}
    (h : Both Q x y) (hi : ∀ a b s t, Q a b s t → R a b s t) : Both R x y := by
  rcases h with ⟨a, b, s, t, e1, e2, q⟩ | hh
  · exact .inl ⟨a, b, s, t, e1, e2, hi a b s t q⟩
  · exact .inr hh

theorem sim_gamma {l d : Nat} (hl : l + d = S.coarsest) (M : MgcSim T S pr du d l) : ∀ (k : Nat) (s : State X) (t : State Y),
    RelAt S.coarsest pr du l False True True s t →
    Both (fun _ _ => RelAt S.coarsest pr du l False True False) (pGammaLoop T (pMgc T (d + 1)) k s) (gammaLoop S (mgc S (d + 1)) k t) := by
  intro k
  induction k with
  | zero => intro s t h; exact .inl ⟨(), (), s, t, rfl, rfl, h.mono False.elim id False.elim⟩
  | succ k ih =>
    intro s t h
    unfold pGammaLoop gammaLoop
    refine (M s t h).bind ?_
    rintro _ _ s t ⟨f, g, h, f', g', h', cv, rfl, rfl, low, ha, hb, hc⟩
    rw [Cmd.bind_ok (Cmd.get_apply _), Cmd.bind_ok (Cmd.get_apply _), mkS_cur, mkS_cur, hS.coarsest]
    by_cases hcl : (curAt S.coarsest l).matrix = S.coarsest
    · rw [if_pos hcl, if_pos hcl]
      exact .inl ⟨(), (), _, _, rfl, rfl, f, g, h, f', g', h', cv, rfl, rfl, low, False.elim, hb, False.elim⟩
    · rw [if_neg hcl, if_neg hcl]
      have hlt : l < S.coarsest := by
        have : l ≠ S.coarsest := hcl
        omega
      have hd : 0 < d := by omega
      by_cases hk : 0 < k
      · rw [if_pos hk, if_pos hk]
        have e1 : pDefect T (mkS S.coarsest (curAt S.coarsest l) f g h cv) = _ := pDefect_mk T (by simp only [curAt]; omega) (by simp only [curAt]; omega)
        rw [Cmd.bind_ok e1, Cmd.bind_ok (updateDefect_mk S (by simp only [curAt]; omega) (by simp only [curAt]; omega))]
        have c1 : (curAt S.coarsest l).rhs = l := rfl
        have c2 : (curAt S.coarsest l).lhs = l := rfl
        have c3 : (curAt S.coarsest l).matrix = l := rfl
        rw [c1, c2, c3]
        refine ih _ _ ⟨_, _, _, _, _, _, cv, rfl, rfl, ?_, False.elim, hb, ?_⟩
        · intro i hi
          simp only [Function.update_of_ne (show i ≠ l by omega)]
          exact low i hi
        · intro _; simp only [Function.update_self]; exact hS.defect l hlt _ _ _ _ (ha hd) (hc hd)
      · rw [if_neg hk, if_neg hk]
        exact ih _ _ ⟨f, g, h, f', g', h', cv, rfl, rfl, low, False.elim, hb, fun _ => hc hd⟩

omit hS in
theorem sim_check {l : Nat} {a b c : Prop} {s : State X} {t : State Y} (h : RelAt S.coarsest pr du l a b c s t) :
    Both (fun _ _ => RelAt S.coarsest pr du l a b c) (checkCoarse s) (checkCoarse t) := by
  obtain ⟨f, g, h, f', g', h', cv, rfl, rfl, low, ha, hb, hc⟩ := h
  unfold checkCoarse
  rw [Cmd.bind_ok (Cmd.get_apply _), Cmd.bind_ok (Cmd.get_apply _)]
  have k1 : (mkS S.coarsest (curAt S.coarsest l) f g h cv).conv = cv := rfl
  have k2 : (mkS S.coarsest (curAt S.coarsest l) f' g' h' cv).conv = cv := rfl
  rw [mkS_cur, mkS_cur, k1, k2]
  by_cases hh : (curAt S.coarsest l).matrix = 0 ∧ cv = false
  · rw [if_pos hh, if_pos hh]
    exact .inr ⟨_, _, rfl, rfl, hh.2, hh.2⟩
  · rw [if_neg hh, if_neg hh]
    exact .inl ⟨(), (), _, _, rfl, rfl, f, g, h, f', g', h', cv, rfl, rfl, low, ha, hb, hc⟩

theorem sim_mgc : ∀ (d l : Nat), l + d = S.coarsest → MgcSim T S pr du d l := by
  intro d
  induction d with
  | zero =>
    intro l hl s t h
    have hl' : l = S.coarsest := by omega
    subst hl'
    have hcur : s.cur = curAt S.coarsest S.coarsest ∧ t.cur = curAt S.coarsest S.coarsest := by
      obtain ⟨f, g, h, f', g', h', cv, rfl, rfl, _⟩ := h; exact ⟨rfl, rfl⟩
    have hce : (curAt S.coarsest S.coarsest).matrix = S.coarsest := rfl
    unfold pMgc mgc
    rw [Cmd.bind_ok (Cmd.get_apply _), Cmd.bind_ok (Cmd.get_apply _), hcur.1, hcur.2, hS.coarsest, if_pos hce, if_pos hce]
    exact (sim_solve hS h).imp fun _ _ _ _ q => q.mono (by omega) id (by omega)
  | succ d ih =>
    intro l hl s t h
    have hlt : l < S.coarsest := by omega
    have hcur : s.cur = curAt S.coarsest l ∧ t.cur = curAt S.coarsest l := by
      obtain ⟨f, g, h, f', g', h', cv, rfl, rfl, _⟩ := h; exact ⟨rfl, rfl⟩
    have hne : ¬ (curAt S.coarsest l).matrix = S.coarsest := by simp only [curAt]; omega
    unfold pMgc mgc
    rw [Cmd.bind_ok (Cmd.get_apply _), Cmd.bind_ok (Cmd.get_apply _), hcur.1, hcur.2, hS.coarsest, if_neg hne, if_neg hne, hS.preSteps,
      hS.postSteps, hS.gamma]
    refine (sim_times (R := RelAt S.coarsest pr du l False True True)
      (fun s t h => (sim_pre hS hlt h).imp fun _ _ _ _ q => q.mono False.elim id id) S.preSteps s t h).bind fun _ _ s t h => ?_
    refine (sim_coarse hS hlt h).bind fun _ _ s t h => ?_
    refine (sim_gamma hS (l := l + 1) (d := d) (by omega) (ih (l + 1) (by omega)) S.gamma s t h).bind fun _ _ s t h => ?_
    refine (sim_fine hS hlt h).bind fun _ _ s t h => ?_
    refine (sim_check h).bind fun _ _ s t h => ?_
    exact (sim_times (fun s t h => sim_post hS hlt h) S.postSteps s t h).imp fun _ _ _ _ q => q.mono (fun _ => trivial) id (fun _ => trivial)

/-- `apply` on all processes and `apply` for the global problem. -/
theorem sim_apply {s : State X} {t : State Y} (hs : s.lhs.length = S.coarsest + 1 ∧ s.upd.length = S.coarsest + 1 ∧ s.rhs.length = S.coarsest + 1)
    (ht : t.Sized S) (hcv : s.conv = t.conv) (v d : X) (v' d' : Y) (hd : du 0 d d') :
    Both (fun a b s t => pr 0 a b ∧ s.conv = t.conv ∧ s.cur = fineCursor) (pApply T v d s) (amgApply S v' d' t) := by
  obtain ⟨f, g, h, e⟩ := state_mk (⟨S.coarsest, fun _ => id, T.pre, T.post, T.restr, fun _ => id, T.solve, T.damp, 0, 0, 0⟩ : Setup K X) s hs
  obtain ⟨f', g', h', e'⟩ := state_mk S t ht
  have hc0 : (curAt S.coarsest 0) = fineCursor := by simp [curAt, fineCursor]
  have h1 : (curAt S.coarsest 0).lhs ≤ S.coarsest := Nat.zero_le _
  have h2 : (curAt S.coarsest 0).update ≤ S.coarsest := Nat.zero_le _
  have h3 : (curAt S.coarsest 0).rhs ≤ S.coarsest := Nat.zero_le _
  have e0 : ({ s with cur := fineCursor } : State X) = mkS S.coarsest (curAt S.coarsest 0) f g h s.conv := by
    rw [hc0]
    conv_lhs => rw [e]
    rfl
  have e0' : ({ t with cur := fineCursor } : State Y) = mkS S.coarsest (curAt S.coarsest 0) f' g' h' t.conv := by
    rw [hc0]
    conv_lhs => rw [e']
    rfl
  unfold pApply amgApply
  rw [Cmd.bind_ok (Cmd.modify_apply _ _), e0, Cmd.bind_ok (setLhs_mk h1), Cmd.bind_ok (setRhs_mk h3), Cmd.bind_ok (setUpd_mk h2)]
  rw [Cmd.bind_ok (Cmd.modify_apply _ _), e0', Cmd.bind_ok (setLhs_mk h1), Cmd.bind_ok (setRhs_mk h3), Cmd.bind_ok (setUpd_mk h2)]
  rw [hS.coarsest, ← hcv]
  refine (sim_mgc hS S.coarsest 0 (by omega) _ _ ⟨_, _, _, _, _, _, s.conv, rfl, rfl, fun i hi => by omega, False.elim, ?_, ?_⟩).bind ?_
  · intro _
    have c : (curAt S.coarsest 0).update = 0 := rfl
    rw [c]; simp only [Function.update_self]; exact hS.zero 0
  · intro _
    have c : (curAt S.coarsest 0).rhs = 0 := rfl
    rw [c]; simp only [Function.update_self]; exact hd
  rintro _ _ s t ⟨f, g, h, f', g', h', cv, rfl, rfl, low, _, hb, _⟩
  have c2 : (curAt S.coarsest 0).update = 0 := rfl
  left
  rw [getUpd_mk h2, c2]
  by_cases hf : T.postSteps = 0 ∨ T.coarsest = 0
  · have : pFinish T (mkS S.coarsest (curAt S.coarsest 0) f g h cv) =
        .ok () (mkS S.coarsest (curAt S.coarsest 0) f (Function.update g 0 (T.copyAll (g 0))) h cv) := by
      unfold pFinish
      rw [if_pos hf, Cmd.bind_ok (getUpd_mk h2), setUpd_mk h2, c2]
    rw [Cmd.bind_ok this, getUpd_mk h2, c2]
    refine ⟨_, _, _, _, rfl, rfl, ?_, rfl, hc0⟩
    simp only [Function.update_self]
    exact hS.copyAll _ _ (hb trivial)
  · have : pFinish T (mkS S.coarsest (curAt S.coarsest 0) f g h cv) = .ok () (mkS S.coarsest (curAt S.coarsest 0) f g h cv) := by
      unfold pFinish
      rw [if_neg hf]; rfl
    rw [Cmd.bind_ok this, getUpd_mk h2, c2]
    exact ⟨_, _, _, _, rfl, rfl, hb trivial, rfl, hc0⟩

end Steps
end Amg
end Istl
