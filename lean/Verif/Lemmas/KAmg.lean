import Verif.Spec.KAmg
import Verif.Lemmas.AmgCycle2
import Verif.Lemmas.Solver
import Verif.Props.C28

/-! The Krylov cycle on the vectors of the hierarchy computes the specified operator. -/

namespace Istl
namespace Amg
open Solver
variable {K Rl V : Type} [AddCommGroup V] [SMul K V] [Zero K] [One K] [Neg K] [Mul K] [Div K] [Zero Rl] [Mul Rl]

/-- From every state of a class, the call returns `a` and ends in that class. -/
def Rets {α : Type} (P : State V → Prop) (c : MG V α) (a : α) : Prop := ∀ s, P s → ∃ s', P s' ∧ c s = .ok a s'

theorem Rets.ret {α : Type} {P : State V → Prop} (a : α) : Rets P (pure a : MG V α) a := fun s h => ⟨s, h, rfl⟩

theorem Rets.bind {α β : Type} {P : State V → Prop} {x : MG V α} {a : α} {f : α → MG V β} {b : β} (hx : Rets P x a)
    (hf : Rets P (f a) b) : Rets P (x >>= f) b := fun s h => by
  obtain ⟨s1, h1, e1⟩ := hx s h
  obtain ⟨s2, h2, e2⟩ := hf s1 h1
  exact ⟨s2, h2, by rw [Cmd.bind_ok e1, e2]⟩

section gp
variable {P : State V → Prop} {E : Env K Rl V} {M : V → V} {prec : V → MG V V}

theorem kDirection_rets (hp : ∀ z, Rets P (prec z) (M z)) (i ii : Nat) (st : GpSt K V Rl) :
    Rets P (kDirection E prec ii st) (gpDirection (kEnv E M) i ii st) :=
  Rets.bind (hp st.b) (Rets.ret _)

theorem kStep_rets {red : Rl} {it it' : It Rl} {i : Nat} {d : Rl} (h : it.step (kEnv E M) red i d = some it') :
    Rets P (kStep E red it i d : MG V (It Rl)) it' := by
  have h : it.step E red i d = some it' := h
  unfold kStep
  rw [h]
  exact Rets.ret _

theorem kInner_rets (hp : ∀ z, Rets P (prec z) (M z)) (red : Rl) : ∀ (n ii i : Nat) (st : GpSt K V Rl) (it : It Rl),
    (gpInner (kEnv E M) red n ii i st it).2.2.2 = none →
    Rets P (kInner E prec red n ii i st it) ((gpInner (kEnv E M) red n ii i st it).1, (gpInner (kEnv E M) red n ii i st it).2.1,
      (gpInner (kEnv E M) red n ii i st it).2.2.1) := by
  intro n
  induction n with
  | zero => intro ii i st it _; exact Rets.ret _
  | succ n ih =>
    intro ii i st it h
    unfold gpInner at h ⊢
    unfold kInner
    dsimp only at h ⊢
    refine Rets.bind (kDirection_rets hp i ii st) ?_
    cases hs : it.step (kEnv E M) red (i + 1) (gpMinimise (kEnv E M) ii (gpDirection (kEnv E M) i ii st)).d with
    | none => rw [hs] at h; cases h
    | some it' =>
      rw [hs] at h
      exact Rets.bind (kStep_rets hs) (ih _ _ _ _ h)

theorem kOuter_rets (hp : ∀ z, Rets P (prec z) (M z)) (red : Rl) (maxit restart : Nat) : ∀ (fuel i : Nat) (st : GpSt K V Rl) (it : It Rl)
    (st' : GpSt K V Rl) (it' : It Rl), gpOuter (kEnv E M) red maxit restart fuel i st it = some (st', it', none) →
    Rets P (kOuter E prec red maxit restart fuel i st it) st' := by
  intro fuel
  induction fuel with
  | zero =>
    intro i st it st' it' h
    unfold gpOuter at h
    unfold kOuter
    split at h
    · cases h
    · rename_i hi
      rw [if_neg hi]
      obtain ⟨rfl, _⟩ := Prod.mk.inj (Option.some.inj h)
      exact Rets.ret _
  | succ fuel ih =>
    intro i st it st' it' h
    unfold gpOuter at h
    unfold kOuter
    by_cases hi : i < maxit
    · rw [if_pos hi] at h ⊢
      dsimp only at h
      split at h
      · have := (Prod.mk.inj (Prod.mk.inj (Option.some.inj h)).2).2; cases this
      · rename_i hn
        refine Rets.bind (kInner_rets hp red _ 1 i st it hn) ?_
        dsimp only
        split at h
        · rename_i hc
          rw [if_pos hc]
          obtain ⟨rfl, _⟩ := Prod.mk.inj (Option.some.inj h)
          exact Rets.ret _
        · rename_i hc
          rw [if_neg hc]
          exact ih _ _ _ _ _ h
    · rw [if_neg hi] at h ⊢
      obtain ⟨rfl, _⟩ := Prod.mk.inj (Option.some.inj h)
      exact Rets.ret _

theorem kSolve_rets (hp : ∀ z, Rets P (prec z) (M z)) (red : Rl) (maxit restart fuel : Nat) (x b : V) (e : Exit V Rl)
    (he : gpApply (kEnv E M) red maxit restart fuel x b = some e) (hx : e.exc = none) :
    Rets P (kSolve E prec red maxit restart fuel x b) e.x := by
  unfold gpApply at he
  unfold kSolve
  dsimp only at he
  split at he
  · obtain rfl := Option.some.inj he; cases hx
  · rename_i it hs
    refine Rets.bind (kStep_rets hs) ?_
    split at he
    · rename_i hc
      rw [if_pos hc]
      obtain rfl := Option.some.inj he
      exact Rets.ret _
    · rename_i hc
      rw [if_neg hc]
      refine Rets.bind (hp _) ?_
      split at he
      · obtain rfl := Option.some.inj he; cases hx
      · rename_i it1 hs1
        dsimp only
        refine Rets.bind (kStep_rets (M := M) hs1) ?_
        split at he
        · rename_i hc1
          rw [if_pos hc1]
          obtain rfl := Option.some.inj he
          exact Rets.ret _
        · rename_i hc1
          rw [if_neg hc1]
          obtain ⟨r, hr, rfl⟩ := Option.map_eq_some_iff.mp he
          obtain ⟨st', it', o⟩ := r
          cases o with
          | some ex => cases hx
          | none => exact Rets.bind (kOuter_rets hp red maxit restart _ _ _ _ _ _ hr) (Rets.ret _)

end gp

/-! ### In exact arithmetic the solver does not throw -/

theorem step_fin {E : Env K Rl V} (hf : ∀ d, E.finite d = true) (red : Rl) (it : It Rl) (i : Nat) (d : Rl) : it.step E red i d ≠ none := by
  intro h
  have := step_none h
  rw [hf] at this
  cases this

theorem gpInner_fin {E : Env K Rl V} (hf : ∀ d, E.finite d = true) (red : Rl) : ∀ (n ii i : Nat) (st : GpSt K V Rl) (it : It Rl),
    (gpInner E red n ii i st it).2.2.2 = none := by
  intro n
  induction n with
  | zero => intro ii i st it; rfl
  | succ n ih =>
    intro ii i st it
    unfold gpInner
    dsimp only
    split
    · rename_i h; exact absurd h (step_fin hf _ _ _ _)
    · exact ih _ _ _ _

theorem gpOuter_fin {E : Env K Rl V} (hf : ∀ d, E.finite d = true) (red : Rl) (maxit restart : Nat) : ∀ (fuel i : Nat) (st : GpSt K V Rl)
    (it : It Rl) (r), gpOuter E red maxit restart fuel i st it = some r → r.2.2 = none := by
  intro fuel
  induction fuel with
  | zero =>
    intro i st it r h
    unfold gpOuter at h
    split at h
    · cases h
    · obtain rfl := Option.some.inj h; rfl
  | succ fuel ih =>
    intro i st it r h
    unfold gpOuter at h
    split at h
    · dsimp only at h
      rw [gpInner_fin hf] at h
      dsimp only at h
      split at h
      · obtain rfl := Option.some.inj h; rfl
      · exact ih _ _ _ _ h
    · obtain rfl := Option.some.inj h; rfl

theorem gp_fin {E : Env K Rl V} (hf : ∀ d, E.finite d = true) {red : Rl} {maxit restart fuel : Nat} {x b : V} {e : Exit V Rl}
    (he : gpApply E red maxit restart fuel x b = some e) : e.exc = none := by
  unfold gpApply at he
  dsimp only at he
  split at he
  · rename_i h; exact absurd h (step_fin hf _ _ _ _)
  · split at he
    · obtain rfl := Option.some.inj he; rfl
    · split at he
      · rename_i h; exact absurd h (step_fin hf _ _ _ _)
      · split at he
        · obtain rfl := Option.some.inj he; rfl
        · obtain ⟨r, hr, rfl⟩ := Option.map_eq_some_iff.mp he
          have := gpOuter_fin hf _ _ _ _ _ _ _ _ hr
          rw [this]

variable [Div Rl]

/-- The Krylov method of a level is run without exception. -/
theorem kgp_run {Q : KParms K Rl V} (hf : ∀ l d, (Q.env l).finite d = true) (hr : 2 ≤ Q.restart) (l : Nat) (M : V → V) (r : V) :
    ∃ e, gpApply (kEnv (Q.env l) M) Q.red Q.maxit Q.restart Q.maxit 0 r = some e ∧ e.exc = none ∧ kgp Q l M r = e.x := by
  obtain ⟨e, he, _⟩ := C28_gpcg (kEnv (Q.env l) M) Q.red Q.maxit Q.restart 0 r hr
  have he := he Q.maxit (le_refl _)
  refine ⟨e, he, gp_fin (E := kEnv (Q.env l) M) (hf l) he, ?_⟩
  unfold kgp
  rw [he]

/-! ### The two-grid objects -/

/-- The object for level `l` with `d + 1` coarser levels. -/
def chain : Nat → Nat → TG
  | 0, _ => .onCoarse
  | d + 1, l => .onKrylov (l + 1) (chain d (l + 1))

/-- The cursor is at level `l`, and the vectors of the finer levels are given. -/
def At (S : Setup K V) (l : Nat) (f0 g0 h0 : Nat → V) (cv : Bool) (s : State V) : Prop :=
  ∃ f g h, s = mkS S.coarsest (curAt S.coarsest l) f g h cv ∧ ∀ i < l, f i = f0 i ∧ g i = g0 i ∧ h i = h0 i

theorem TG.apply_rets (S : Setup K V) (Q : KParms K Rl V) (hA : ∀ l x y, S.mat l (x + y) = S.mat l x + S.mat l y)
    (hf : ∀ l d, (Q.env l).finite d = true) (hr : 2 ≤ Q.restart) : ∀ (d l : Nat), l + (d + 1) = S.coarsest →
    ∀ (f0 g0 h0 : Nat → V) (cv : Bool) (v b : V), Rets (At S l f0 g0 h0 cv) (TG.apply S Q (chain d l) v b) (kmg S Q (d + 1) l b) := by
  intro d
  induction d with
  | zero =>
    intro l hl f0 g0 h0 cv v b s hs
    obtain ⟨f, g, h, rfl, hsame⟩ := hs
    have hlt : l < S.coarsest := by omega
    have A0 := map_zero_of_add (hA l)
    have c1 : (curAt S.coarsest l).lhs ≤ S.coarsest := by simp only [curAt]; omega
    have c2 : (curAt S.coarsest l).update ≤ S.coarsest := by simp only [curAt]; omega
    have c3 : (curAt S.coarsest l).rhs ≤ S.coarsest := by simp only [curAt]; omega
    have d2 : (curAt S.coarsest (l + 1)).update ≤ S.coarsest := by simp only [curAt]; omega
    have d3 : (curAt S.coarsest (l + 1)).rhs ≤ S.coarsest := by simp only [curAt]; omega
    unfold chain TG.apply
    rw [Cmd.bind_ok (setUpd_mk c2), Cmd.bind_ok (setRhs_mk c3), Cmd.bind_ok (setLhs_mk c1)]
    rw [show (curAt S.coarsest l).lhs = l from rfl, show (curAt S.coarsest l).update = l from rfl, show (curAt S.coarsest l).rhs = l from rfl]
    obtain ⟨f1, hf1, e1⟩ := pre_times S hA hlt cv b S.preSteps (Function.update f l v) (Function.update g l 0) (Function.update h l b) 0
      (by rw [A0, sub_zero, Function.update_self])
    rw [sub_zero, Function.update_self, zero_add, Function.update_idem, Function.update_idem] at e1
    set u := relax (S.mat l) (S.pre l 0) b S.preSteps 0 with hu
    have e2 := moveToCoarse_mk S hlt f1 (Function.update g l u) (Function.update h l (b - S.mat l u)) cv
    rw [Function.update_self] at e2
    rw [Cmd.bind_ok e1, Cmd.bind_ok e2, Cmd.bind_ok (getRhs_mk d3), Cmd.bind_ok (getUpd_mk d2), Cmd.bind_ok (setUpd_mk d2)]
    rw [show (curAt S.coarsest (l + 1)).update = l + 1 from rfl, show (curAt S.coarsest (l + 1)).rhs = l + 1 from rfl,
      Function.update_self, Function.update_self, Function.update_idem]
    set c := (S.solve 0 (S.restr l (b - S.mat l u))).1 with hc
    obtain ⟨g3, p1, p2, e4⟩ := moveToFine_mk S hlt f1 (Function.update (Function.update g l u) (l + 1) c)
      (Function.update (Function.update h l (b - S.mat l u)) (l + 1) (S.restr l (b - S.mat l u))) cv
    rw [Function.update_self] at p2 e4
    rw [Function.update_of_ne (by omega), Function.update_self] at p2
    obtain ⟨f5, hf5, e5⟩ := post_times S hA hlt cv b S.postSteps (Function.update f1 l (S.prol l (S.damp • c))) g3
        (Function.update (Function.update h l (b - S.mat l u)) (l + 1) (S.restr l (b - S.mat l u)))
        (u + S.prol l (S.damp • c)) (by rw [Function.update_self, Function.update_of_ne (by omega), Function.update_self, add_sub_cancel_right])
    rw [Cmd.bind_ok e4, Cmd.bind_ok e5, getUpd_mk c2]
    refine ⟨_, ?_, congrArg₂ Out.ok ?_ rfl⟩
    · refine ⟨_, _, _, rfl, ?_⟩
      intro i hi
      have hne : i ≠ l := by omega
      have hne1 : i ≠ l + 1 := by omega
      obtain ⟨a1, a2, a3⟩ := hsame i hi
      refine ⟨?_, ?_, ?_⟩
      · rw [hf5 i hne, Function.update_of_ne hne, hf1 i hne, Function.update_of_ne hne, a1]
      · rw [Function.update_of_ne hne, p1 i hne1 hne, Function.update_of_ne hne1, Function.update_of_ne hne, a2]
      · rw [Function.update_of_ne hne, Function.update_of_ne hne1, Function.update_of_ne hne, a3]
    · rw [show (curAt S.coarsest l).update = l from rfl, Function.update_self, p2]
      show u + S.prol l (S.damp • c) + (relax _ _ b _ _ - _) = relax _ _ b _ (u + S.prol l (S.damp • c))
      abel
  | succ d ih =>
    intro l hl f0 g0 h0 cv v b s hs
    obtain ⟨f, g, h, rfl, hsame⟩ := hs
    have hlt : l < S.coarsest := by omega
    have A0 := map_zero_of_add (hA l)
    have c1 : (curAt S.coarsest l).lhs ≤ S.coarsest := by simp only [curAt]; omega
    have c2 : (curAt S.coarsest l).update ≤ S.coarsest := by simp only [curAt]; omega
    have c3 : (curAt S.coarsest l).rhs ≤ S.coarsest := by simp only [curAt]; omega
    have d2 : (curAt S.coarsest (l + 1)).update ≤ S.coarsest := by simp only [curAt]; omega
    have d3 : (curAt S.coarsest (l + 1)).rhs ≤ S.coarsest := by simp only [curAt]; omega
    unfold chain TG.apply
    rw [Cmd.bind_ok (setUpd_mk c2), Cmd.bind_ok (setRhs_mk c3), Cmd.bind_ok (setLhs_mk c1)]
    rw [show (curAt S.coarsest l).lhs = l from rfl, show (curAt S.coarsest l).update = l from rfl, show (curAt S.coarsest l).rhs = l from rfl]
    obtain ⟨f1, hf1, e1⟩ := pre_times S hA hlt cv b S.preSteps (Function.update f l v) (Function.update g l 0) (Function.update h l b) 0
      (by rw [A0, sub_zero, Function.update_self])
    rw [sub_zero, Function.update_self, zero_add, Function.update_idem, Function.update_idem] at e1
    set u := relax (S.mat l) (S.pre l 0) b S.preSteps 0 with hu
    have e2 := moveToCoarse_mk S hlt f1 (Function.update g l u) (Function.update h l (b - S.mat l u)) cv
    rw [Function.update_self] at e2
    rw [Cmd.bind_ok e1, Cmd.bind_ok e2, Cmd.bind_ok (getRhs_mk d3), Cmd.bind_ok (getUpd_mk d2)]
    rw [show (curAt S.coarsest (l + 1)).update = l + 1 from rfl, show (curAt S.coarsest (l + 1)).rhs = l + 1 from rfl,
      Function.update_self, Function.update_self]
    set r := S.restr l (b - S.mat l u) with hr'
    obtain ⟨e, he, hx, hk⟩ := kgp_run hf hr (l + 1) (kmg S Q (d + 1) (l + 1)) r
    obtain ⟨s2, ⟨f2, g2, h2, rfl, hs2⟩, e3⟩ := kSolve_rets (fun z => ih (l + 1) (by omega) f1
      (Function.update (Function.update g l u) (l + 1) 0) (Function.update (Function.update h l (b - S.mat l u)) (l + 1) r) cv 0 z)
      Q.red Q.maxit Q.restart Q.maxit 0 r e he hx _ ⟨_, _, _, rfl, fun _ _ => ⟨rfl, rfl, rfl⟩⟩
    rw [Cmd.bind_ok e3, Cmd.bind_ok (setUpd_mk d2), ← hk]
    set c := kgp Q (l + 1) (kmg S Q (d + 1) (l + 1)) r with hc
    rw [show (curAt S.coarsest (l + 1)).update = l + 1 from rfl]
    obtain ⟨g3, p1, p2, e4⟩ := moveToFine_mk S hlt f2 (Function.update g2 (l + 1) c) h2 cv
    obtain ⟨q1, q2, q3⟩ := hs2 l (by omega)
    rw [Function.update_of_ne (by omega), Function.update_self] at q2 q3
    rw [Function.update_self] at p2 e4
    rw [Function.update_of_ne (by omega), q2] at p2
    obtain ⟨f5, hf5, e5⟩ := post_times S hA hlt cv b S.postSteps (Function.update f2 l (S.prol l (S.damp • c))) g3 h2
        (u + S.prol l (S.damp • c)) (by rw [Function.update_self, q3, add_sub_cancel_right])
    rw [Cmd.bind_ok e4, Cmd.bind_ok e5, getUpd_mk c2]
    refine ⟨_, ?_, congrArg₂ Out.ok ?_ rfl⟩
    · refine ⟨_, _, _, rfl, ?_⟩
      intro i hi
      have hne : i ≠ l := by omega
      have hne1 : i ≠ l + 1 := by omega
      obtain ⟨a1, a2, a3⟩ := hsame i hi
      obtain ⟨b1, b2, b3⟩ := hs2 i (by omega)
      rw [Function.update_of_ne hne1, Function.update_of_ne hne] at b2 b3
      refine ⟨?_, ?_, ?_⟩
      · rw [hf5 i hne, Function.update_of_ne hne, b1, hf1 i hne, Function.update_of_ne hne, a1]
      · rw [Function.update_of_ne hne, p1 i hne1 hne, Function.update_of_ne hne1, b2, a2]
      · rw [Function.update_of_ne hne, b3, a3]
    · rw [show (curAt S.coarsest l).update = l from rfl, Function.update_self, p2]
      show u + S.prol l (S.damp • c) + (relax _ _ b _ _ - _) = relax _ _ b _ (u + S.prol l (S.damp • c))
      abel

/-! ### The list built by `pre` -/

theorem kpreLoop_chain (L : Nat) : ∀ (m d : Nat) (ks : List TG), m + d + 1 = L →
    ∃ ks', kpreLoop m (chain d m :: ks) = .ok (chain (d + m) 0 :: ks') := by
  intro m
  induction m with
  | zero => intro d ks _; exact ⟨ks, rfl⟩
  | succ m ih =>
    intro d ks h
    obtain ⟨ks', e⟩ := ih (d + 1) (chain d (m + 1) :: ks) (by omega)
    refine ⟨ks', ?_⟩
    rw [kpreLoop, show d + (m + 1) = d + 1 + m by omega]
    exact e

theorem kpre_chain (S : Setup K V) (ks : List TG) (h : 0 < S.coarsest) : ∃ ks', kpre S ks = .ok (chain (S.coarsest - 1) 0 :: ks') := by
  unfold kpre
  rw [if_neg (by omega)]
  obtain ⟨ks', e⟩ := kpreLoop_chain S.coarsest (S.coarsest - 1) 0 ks (by omega)
  rw [Nat.zero_add] at e
  exact ⟨ks', e⟩

end Amg
end Istl
