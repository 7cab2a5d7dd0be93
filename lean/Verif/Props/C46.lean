import Verif.Lemmas.AmgAdditive
import Mathlib.Algebra.Module.Basic
import Mathlib.Algebra.Module.LinearMap.End

/-!
# C46 Multigrid cycle keeps the defect consistent
-/

namespace Istl
namespace Amg
variable {K V : Type} [AddCommGroup V] [SMul K V]

/-- **C46.** `AMG::apply(v,d)`, for every hierarchy, all smoothers, numbers of smoothing steps and `gamma`: the call either returns the
vector of the documented cycle started from zero, whatever `v` and the work vectors contained before, and leaves the level
context on the finest level; or (more than one level only) it throws `MathError` because the coarse solver did not converge, in this
call or in an earlier one. -/
theorem C46_apply_is_the_cycle (S : Setup K V) (hA : ∀ l x y, S.mat l (x + y) = S.mat l x + S.mat l y) (s : State V) (hs : s.Sized S)
    (v d : V) :
    (∃ s', amgApply S v d s = .ok (mg S S.coarsest 0 d) s' ∧ s'.Sized S ∧ s'.cur = fineCursor ∧ (S.Converges → s'.conv = s.conv)) ∨
    (∃ s', amgApply S v d s = .throw .mathError s' ∧ s'.Sized S ∧ s'.conv = false ∧ 0 < S.coarsest ∧ (S.Converges → s.conv = false)) := by
  obtain ⟨f, g, h, e⟩ := state_mk S s hs
  have hc0 : (curAt S.coarsest 0) = fineCursor := by simp [curAt, fineCursor]
  have h1 : (curAt S.coarsest 0).lhs ≤ S.coarsest := Nat.zero_le _
  have h2 : (curAt S.coarsest 0).update ≤ S.coarsest := Nat.zero_le _
  have h3 : (curAt S.coarsest 0).rhs ≤ S.coarsest := Nat.zero_le _
  have e0 : ({ s with cur := fineCursor } : State V) = mkS S.coarsest (curAt S.coarsest 0) f g h s.conv := by
    rw [hc0]
    conv_lhs => rw [e]
    rfl
  unfold amgApply
  rw [Cmd.bind_ok (Cmd.modify_apply _ _), e0, Cmd.bind_ok (setLhs_mk h1), Cmd.bind_ok (setRhs_mk h3), Cmd.bind_ok (setUpd_mk h2)]
  rcases mgc_spec S hA S.coarsest 0 (by omega) (Function.update f (curAt S.coarsest 0).lhs v)
    (Function.update g (curAt S.coarsest 0).update 0) (Function.update h (curAt S.coarsest 0).rhs d) s.conv
    (fun _ => Function.update_self ..) with ⟨f', g', h', cv', q, D⟩ | ⟨_, q1, q2, f', g', h', q⟩
  · left
    rw [Cmd.bind_ok q, getUpd_mk h2]
    refine ⟨mkS S.coarsest (curAt S.coarsest 0) f' g' h' cv', ?_, mkS_sized S _ _ _ _ _, by rw [mkS_cur, hc0], D.conv⟩
    have := D.upd
    rw [show (curAt S.coarsest 0).update = 0 from rfl, show (curAt S.coarsest 0).rhs = 0 from rfl, Function.update_self,
      Function.update_self, zero_add] at this
    rw [show (curAt S.coarsest 0).update = 0 from rfl, this]
  · right
    rw [Cmd.bind_throw q]
    exact ⟨_, rfl, mkS_sized S _ _ _ _ _, rfl, q1, q2⟩

/-- **C46.** On every level `l` of the hierarchy and for every content of the vectors: after a cycle on this level the defect vector is
the initial one minus the matrix times what has been added to the update, up to the increment left in the left hand side vector
(pending, it is subtracted by whoever needs the defect next), and finer levels are untouched. -/
theorem C46_defect_consistent (S : Setup K V) (hA : ∀ l x y, S.mat l (x + y) = S.mat l x + S.mat l y) (l d : Nat)
    (hl : l + d = S.coarsest) (hd : 0 < d) (f g h : Nat → V) (cv : Bool) (s' : State V)
    (hr : mgc S (d + 1) (mkS S.coarsest (curAt S.coarsest l) f g h cv) = .ok () s') :
    ∃ f' g' h' cv', s' = mkS S.coarsest (curAt S.coarsest l) f' g' h' cv' ∧
      h' l = h l - S.mat l (g' l - g l - f' l) ∧ (∀ i, i < l → f' i = f i ∧ g' i = g i ∧ h' i = h i) := by
  rcases mgc_spec S hA d l hl f g h cv (by omega) with ⟨f', g', h', cv', q, D⟩ | ⟨_, _, _, f', g', h', q⟩
  · rw [hr] at q
    simp at q
    refine ⟨f', g', h', cv', q, ?_, D.same⟩
    rw [D.defect hd, D.upd]
    congr 2
    abel
  · rw [hr] at q; simp at q

/-- **C46.** A failure of the coarse solver is remembered for ever: once the flag is down, `apply` throws for a hierarchy with more than
one level even if the coarse solver converges now. -/
theorem C46_failure_is_sticky (S : Setup K V) (hA : ∀ l x y, S.mat l (x + y) = S.mat l x + S.mat l y) (hL : 0 < S.coarsest)
    (s : State V) (hs : s.Sized S) (hc : s.conv = false) (v d : V) :
    ∃ s', amgApply S v d s = .throw .mathError s' ∧ s'.conv = false := by
  obtain ⟨f, g, h, e⟩ := state_mk S s hs
  have hc0 : (curAt S.coarsest 0) = fineCursor := by simp [curAt, fineCursor]
  have h1 : (curAt S.coarsest 0).lhs ≤ S.coarsest := Nat.zero_le _
  have h2 : (curAt S.coarsest 0).update ≤ S.coarsest := Nat.zero_le _
  have h3 : (curAt S.coarsest 0).rhs ≤ S.coarsest := Nat.zero_le _
  have e0 : ({ s with cur := fineCursor } : State V) = mkS S.coarsest (curAt S.coarsest 0) f g h s.conv := by
    rw [hc0]
    conv_lhs => rw [e]
    rfl
  unfold amgApply
  rw [Cmd.bind_ok (Cmd.modify_apply _ _), e0, Cmd.bind_ok (setLhs_mk h1), Cmd.bind_ok (setRhs_mk h3), Cmd.bind_ok (setUpd_mk h2)]
  rcases mgc_spec S hA S.coarsest 0 (by omega) (Function.update f (curAt S.coarsest 0).lhs v)
    (Function.update g (curAt S.coarsest 0).update 0) (Function.update h (curAt S.coarsest 0).rhs d) s.conv
    (fun _ => Function.update_self ..) with ⟨f', g', h', cv', q, D⟩ | ⟨_, q1, q2, f', g', h', q⟩
  · have := D.mono (D.fine rfl hL)
    rw [hc] at this; simp at this
  · rw [Cmd.bind_throw q]
    exact ⟨_, rfl, rfl⟩

/-- **C46.** The two-level method computes the same cycle with one coarse level, added to the vector it is given (which the caller has to
set to zero). -/
theorem C46_two_level_apply (S : Setup K V) (hA : ∀ l x y, S.mat l (x + y) = S.mat l x + S.mat l y) (hg : S.gamma ≠ 0) (s : State V)
    (v d : V) : ∃ s', twoLevelApply S v d s = .ok (v + mg S 1 0 d) s' := by
  have hst : ({ cur := fineCursor, lhs := [v], upd := [v], rhs := [d], conv := true } : State V) =
      ⟨curAt 1 0, [v], [v], [d], true⟩ := by simp [curAt, fineCursor]
  -- one level of vectors: the steps of level 0 on singleton lists
  have pre1 : ∀ (k : Nat) (a b c w : V), c = d - S.mat 0 w → ∃ a', times (preStep S) k ⟨curAt 1 0, [a], [b], [c], true⟩ =
      .ok () ⟨curAt 1 0, [a'], [b + (relax (S.mat 0) (S.pre 0 0) d k w - w)], [d - S.mat 0 (relax (S.mat 0) (S.pre 0 0) d k w)], true⟩ := by
    intro k
    induction k with
    | zero => intro a b c w hw; exact ⟨a, by simp [times, relax, hw]⟩
    | succ k ih =>
      intro a b c w hw
      have hstep : preStep S ⟨curAt 1 0, [a], [b], [c], true⟩ = .ok () ⟨curAt 1 0, [S.pre 0 0 c], [b + S.pre 0 0 c],
          [c - S.mat 0 (S.pre 0 0 c)], true⟩ := rfl
      obtain ⟨a', e⟩ := ih (S.pre 0 0 c) (b + S.pre 0 0 c) (c - S.mat 0 (S.pre 0 0 c)) (w + S.pre 0 0 c) (by rw [hA, hw]; abel)
      refine ⟨a', ?_⟩
      unfold times
      rw [Cmd.bind_ok hstep, e]
      have h3 : ∀ X p : V, b + p + (X - (w + p)) = b + (X - w) := fun X p => by abel
      simp only [relax, hw, h3]
  have post1 : ∀ (k : Nat) (a b c w : V), c = d - S.mat 0 (w - a) → ∃ a' c', times (postStep S) k ⟨curAt 1 0, [a], [b], [c], true⟩ =
      .ok () ⟨curAt 1 0, [a'], [b + (relax (S.mat 0) (S.post 0 0) d k w - w)], [c'], true⟩ := by
    intro k
    induction k with
    | zero => intro a b c w hw; exact ⟨a, c, by simp [times, relax]⟩
    | succ k ih =>
      intro a b c w hw
      have hd : c - S.mat 0 a = d - S.mat 0 w := by rw [hw, map_sub_of_add (hA 0)]; abel
      have hstep : postStep S ⟨curAt 1 0, [a], [b], [c], true⟩ = .ok () ⟨curAt 1 0, [S.post 0 0 (c - S.mat 0 a)],
          [b + S.post 0 0 (c - S.mat 0 a)], [c - S.mat 0 a], true⟩ := rfl
      rw [hd] at hstep
      obtain ⟨a', c', e⟩ := ih (S.post 0 0 (d - S.mat 0 w)) (b + S.post 0 0 (d - S.mat 0 w)) (d - S.mat 0 w)
        (w + S.post 0 0 (d - S.mat 0 w)) (by rw [add_sub_cancel_right])
      refine ⟨a', c', ?_⟩
      unfold times
      rw [Cmd.bind_ok hstep, e]
      have h3 : ∀ X p : V, b + p + (X - (w + p)) = b + (X - w) := fun X p => by abel
      simp only [relax, h3]
  unfold twoLevelApply
  rw [Cmd.bind_ok (Cmd.set_apply _ _), hst]
  obtain ⟨a1, e1⟩ := pre1 S.preSteps v v d 0 (by rw [map_zero_of_add (hA 0), sub_zero])
  rw [sub_zero] at e1
  rw [Cmd.bind_ok e1]
  have hR : ∀ a b c : V, getRhs (⟨curAt 1 0, [a], [b], [c], true⟩ : State V) = .ok c ⟨curAt 1 0, [a], [b], [c], true⟩ := fun _ _ _ => rfl
  have hL : ∀ a b c : V, getLhs (⟨curAt 1 0, [a], [b], [c], true⟩ : State V) = .ok a ⟨curAt 1 0, [a], [b], [c], true⟩ := fun _ _ _ => rfl
  have hU : ∀ a b c : V, getUpd (⟨curAt 1 0, [a], [b], [c], true⟩ : State V) = .ok b ⟨curAt 1 0, [a], [b], [c], true⟩ := fun _ _ _ => rfl
  have hS : ∀ a b c x : V, setLhs x (⟨curAt 1 0, [a], [b], [c], true⟩ : State V) = .ok () ⟨curAt 1 0, [x], [b], [c], true⟩ := fun _ _ _ _ => rfl
  have hAdd : ∀ a b c : V, addLhs (⟨curAt 1 0, [a], [b], [c], true⟩ : State V) = .ok () ⟨curAt 1 0, [a], [b + a], [c], true⟩ := fun _ _ _ => rfl
  rw [Cmd.bind_ok (hR _ _ _)]
  rw [Cmd.bind_ok (hS _ _ _ _), Cmd.bind_ok (hL _ _ _), Cmd.bind_ok (hS _ _ _ _), Cmd.bind_ok (hAdd _ _ _), zero_add]
  obtain ⟨a2, c2, e2⟩ := post1 S.postSteps (S.prol 0 (S.damp • (S.solve 0 (S.restr 0 (d - S.mat 0 (relax (S.mat 0) (S.pre 0 0) d S.preSteps 0)))).1))
    (v + relax (S.mat 0) (S.pre 0 0) d S.preSteps 0 +
      S.prol 0 (S.damp • (S.solve 0 (S.restr 0 (d - S.mat 0 (relax (S.mat 0) (S.pre 0 0) d S.preSteps 0)))).1))
    (d - S.mat 0 (relax (S.mat 0) (S.pre 0 0) d S.preSteps 0))
    (relax (S.mat 0) (S.pre 0 0) d S.preSteps 0 +
      S.prol 0 (S.damp • (S.solve 0 (S.restr 0 (d - S.mat 0 (relax (S.mat 0) (S.pre 0 0) d S.preSteps 0)))).1))
    (by rw [add_sub_cancel_right])
  rw [Cmd.bind_ok e2, hU]
  refine ⟨_, congrArg (fun z => Out.ok z _) ?_⟩
  simp only [mg, if_true, if_neg hg]
  abel

/-- **C46.** The additive variant, for every hierarchy: if the coarse solver converges, `apply` returns the sum of the smoothed and
prolongated corrections of all levels, the coarse solver being started with what the last call left in the vector `z` of the coarsest
level; if it does not converge, the call throws `MathError`. -/
theorem C46_additive (S : Setup K V) (lhs rhs : List V) (h1 : lhs.length = S.coarsest + 1) (h2 : rhs.length = S.coarsest + 1)
    (z : V) (hz : lhs[S.coarsest]? = some z) (d : V) :
    (∃ l r, additiveApply S lhs rhs d = .ok (l, r, additive (fun b => (S.solve z b).1) S S.coarsest 0 d) ∧
      l.length = S.coarsest + 1 ∧ r.length = S.coarsest + 1) ∨
    (additiveApply S lhs rhs d = .throw .mathError ∧ ∃ b, (S.solve z b).2.2 = false) := by
  obtain ⟨f, g, h, e⟩ := state_mk S ⟨fineCursor, lhs, lhs, rhs, true⟩ ⟨h1, h1, h2⟩
  have el : lhs = (List.range (S.coarsest + 1)).map f := congrArg State.lhs e
  have er : rhs = (List.range (S.coarsest + 1)).map h := congrArg State.rhs e
  have hfz : f S.coarsest = z := by
    rw [el, List.getElem?_map, List.getElem?_range (by omega)] at hz
    exact Option.some.inj hz
  unfold additiveApply
  rw [er, el, wr_map h d (Nat.zero_le _), Res.ok_bind]
  obtain ⟨r', e1, e2⟩ := addRestrict_spec S d S.coarsest (Function.update h 0 d) (le_refl _) (fun l hl => by
    have : l = 0 := by omega
    subst this; rw [Function.update_self]; rfl)
  rw [e1, Res.ok_bind]
  obtain ⟨f', e3, e4, e5⟩ := addSmooth_spec S r' S.coarsest f (le_refl _) (fun l hl => by omega)
  rw [e3, Res.ok_bind, rd_map f' (le_refl _), Res.ok_bind, rd_map r' (le_refl _), Res.ok_bind]
  dsimp only
  rw [wr_map f' _ (le_refl _), Res.ok_bind, wr_map r' _ (le_refl _), Res.ok_bind, e5, hfz]
  by_cases hc : (S.solve z (r' S.coarsest)).2.2 = false
  · right
    exact ⟨by rw [if_pos hc], _, hc⟩
  · left
    rw [if_neg hc]
    obtain ⟨f'', e6, e7⟩ := addProlong_spec S (fun b => (S.solve z b).1) d S.coarsest
      (Function.update f' S.coarsest (S.solve z (r' S.coarsest)).1) (le_refl _)
      (fun l hl => by rw [Function.update_of_ne (by omega), e4 l hl, e2 l (by omega)])
      (by rw [Function.update_self, Nat.sub_self, additive, e2 _ (le_refl _)])
    rw [e6, Res.ok_bind, rd_map f'' (Nat.zero_le _), Res.ok_bind, e7]
    exact ⟨_, _, rfl, by simp, by simp⟩

/-- A hierarchy of three levels over the integers, used to show that the hypotheses above can be met; the coarse "solver" makes one step of
`v ← v + (d - 3 v)`, as an iterative coarse solver would. -/
def demo : Setup Int Int where
  coarsest := 2
  mat := fun l x => (l + 2 : Int) * x
  pre := fun _ v d => v + d
  post := fun _ v d => v + 2 * d
  restr := fun _ x => x
  prol := fun l x => (l + 1 : Int) * x
  solve := fun v d => (v + (d - 3 * v), 0, true)
  damp := 2
  preSteps := 1
  postSteps := 2
  gamma := 2

example : demo.Converges ∧ (∀ l x y, demo.mat l (x + y) = demo.mat l x + demo.mat l y) ∧
    (⟨fineCursor, [1, 2, 3], [4, 5, 6], [7, 8, 9], true⟩ : State Int).Sized demo :=
  ⟨fun _ => rfl, fun _ _ _ => mul_add _ _ _, rfl, rfl, rfl⟩

/-- the cycle of the demonstration hierarchy really runs and gives the specified number, whatever `v` and the work vectors contain -/
example : (match amgApply demo 17 5 ⟨fineCursor, [1, 2, 3], [4, 5, 6], [7, 8, 9], true⟩ with
    | .ok v _ => decide (v = mg demo 2 0 5)
    | _ => false) = true := by decide +kernel

/-- hypotheses of the failure theorem -/
example : (0 < demo.coarsest) ∧ (⟨fineCursor, [1, 2, 3], [4, 5, 6], [7, 8, 9], false⟩ : State Int).conv = false := ⟨by decide, rfl⟩

/-- **C46, counterexample.** In the additive variant two calls with the same right hand side on the same object can return different
vectors: the coarsest correction is not set to zero before the (iterative) coarse solver is started on it. -/
theorem C46_additive_history_counterexample :
    ∃ l r v l' r' v', additiveApply demo [0, 0, 0] [0, 0, 0] 1 = .ok (l, r, v) ∧ additiveApply demo l r 1 = .ok (l', r', v') ∧ v ≠ v' :=
  ⟨[4, 3, 1], [1, 1, 0], 4, [0, -1, -1], [1, 1, 0], 0, by decide +kernel, by decide +kernel, by decide⟩

end Amg

/-! ### Error propagation -/
namespace Amg
variable {K V : Type} [CommRing K] [AddCommGroup V] [Module K V]

/-- `k` relaxation steps with a linear smoother multiply the error by `(1 - S A)^k`. -/
theorem relax_error (A S : Module.End K V) (x : V) : ∀ (k : Nat) (u : V),
    x - relax A S (A x) k u = ((1 - S * A) ^ k) (x - u) := by
  intro k
  induction k with
  | zero => intro u; simp [relax]
  | succ k ih =>
    intro u
    rw [relax, ih, pow_succ, Module.End.mul_apply]
    congr 1
    simp only [LinearMap.sub_apply, Module.End.one_apply, Module.End.mul_apply, map_sub]
    abel

/-- **C46.** Two levels, linear smoothers, exact coarse solve: the error `x - u` of the approximation computed for the right hand side
`A x` is `(1 - S₂ A)^ν₂ (1 - ω P C R A) (1 - S₁ A)^ν₁ x`, with `C` the coarse solution operator, `ω` the damping factor. -/
theorem C46_two_level_error (A S1 S2 R P C : Module.End K V) (S : Setup K V) (hL : S.coarsest = 1) (h1 : S.mat 0 = A)
    (h2 : S.pre 0 0 = S1) (h3 : S.post 0 0 = S2) (h4 : S.restr 0 = R) (h5 : S.prol 0 = P) (h6 : ∀ b, (S.solve 0 b).1 = C b)
    (hg : S.gamma ≠ 0) (x : V) :
    x - mg S S.coarsest 0 (A x) =
      ((1 - S2 * A) ^ S.postSteps * (1 - S.damp • (P * C * R * A)) * (1 - S1 * A) ^ S.preSteps) x := by
  rw [hL]
  simp only [mg, if_true, if_neg hg, h1, h2, h3, h4, h5, h6]
  rw [relax_error, Module.End.mul_apply, Module.End.mul_apply]
  congr 1
  have := relax_error A S1 x S.preSteps 0
  rw [sub_zero] at this
  rw [← this]
  simp only [LinearMap.sub_apply, Module.End.one_apply, Module.End.mul_apply, LinearMap.smul_apply, map_smul, map_sub, smul_sub]
  abel

/-- **C46.** The exact coarse correction makes the restricted defect vanish: without damping and with `C` inverse to the Galerkin
operator `R A P`, after the coarse correction `R (b - A u) = 0`. -/
theorem C46_coarse_correction_exact (A R P C : Module.End K V) (hC : ∀ y, R (A (P (C (R y)))) = R y) (b u : V) :
    R (b - A (u + P (C (R (b - A u))))) = 0 := by
  have := hC (b - A u)
  rw [map_add, ← sub_sub, map_sub, this, sub_self]

/-- The operator of a whole cycle as a linear map, level by level. -/
theorem relax_linear (A S : Module.End K V) (k : Nat) : ∃ T : Module.End K V, ∃ U : Module.End K V, ∀ b u, relax A S b k u = T b + U u := by
  induction k with
  | zero => exact ⟨0, 1, fun b u => by simp [relax]⟩
  | succ k ih =>
    obtain ⟨T, U, h⟩ := ih
    refine ⟨T + U * S, U * (1 - S * A), fun b u => ?_⟩
    rw [relax, h]
    simp only [LinearMap.add_apply, Module.End.mul_apply, LinearMap.sub_apply, Module.End.one_apply, map_add, map_sub]
    abel

/-- **C46.** With linear smoothers, transfers and coarse solver the cycle of any depth, with any number of smoothing steps and any
`gamma`, is a linear operator (what CG needs of a preconditioner). -/
theorem C46_cycle_linear (A S1 S2 R P : Nat → Module.End K V) (C : Module.End K V) (S : Setup K V) (h1 : ∀ l, S.mat l = A l)
    (h2 : ∀ l, S.pre l 0 = S1 l) (h3 : ∀ l, S.post l 0 = S2 l) (h4 : ∀ l, S.restr l = R l) (h5 : ∀ l, S.prol l = P l)
    (h6 : ∀ b, (S.solve 0 b).1 = C b) : ∀ (d l : Nat), ∃ T : Module.End K V, ∀ b, mg S d l b = T b := by
  intro d
  induction d with
  | zero => intro l; exact ⟨C, h6⟩
  | succ d ih =>
    intro l
    obtain ⟨M, hM⟩ := ih (l + 1)
    have hM' : mg S d (l + 1) = M := funext hM
    obtain ⟨T1, U1, e1⟩ := relax_linear (A l) (S1 l) S.preSteps
    obtain ⟨T2, U2, e2⟩ := relax_linear (A l) (S2 l) S.postSteps
    obtain ⟨T3, U3, e3⟩ := relax_linear (A (l + 1)) M S.gamma
    let Q : Module.End K V := if d = 0 then (if S.gamma = 0 then 0 else C) else T3
    have hQ : ∀ r : V, (if d = 0 then (if S.gamma = 0 then 0 else (S.solve 0 r).1) else relax (S.mat (l + 1)) (mg S d (l + 1)) r S.gamma 0) =
        Q r := by
      intro r
      by_cases hd : d = 0
      · by_cases hg : S.gamma = 0
        · simp [Q, hd, hg]
        · simp [Q, hd, hg, h6]
      · simp [Q, hd, h1, hM', e3]
    refine ⟨T2 + U2 * (T1 + S.damp • (P l * Q * R l * (1 - A l * T1))), fun b => ?_⟩
    simp only [mg]
    rw [hQ]
    simp only [h1, h2, h3, h4, h5, e1, e2, map_zero, add_zero]
    simp only [LinearMap.add_apply, Module.End.mul_apply, LinearMap.sub_apply, Module.End.one_apply, LinearMap.smul_apply, map_smul]

/-- the hypotheses of the linear theorems are met by multiplications, with an exact coarse solver (`C = 1`, `R A P = 1`) -/
example : ∃ A S1 S2 R P C : Module.End ℤ ℤ, A ≠ 0 ∧ S1 ≠ S2 ∧ (∀ y, R (A (P (C (R y)))) = R y) ∧
    (⟨1, fun _ => A, fun _ v d => v + S1 d, fun _ v d => v + S2 d, fun _ => R, fun _ => P, fun _ b => (C b, 0, true), (1 : ℤ), 1, 1, 1⟩ :
      Setup ℤ ℤ).pre 0 0 = S1 :=
  ⟨1, 1, -1, 1, 1, 1, one_ne_zero, fun h => absurd (congrArg (fun f : Module.End ℤ ℤ => f 1) h) (by simp), fun _ => rfl, funext fun d => zero_add _⟩

end Amg
end Istl
