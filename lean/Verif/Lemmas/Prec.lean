import Verif.Model.Prec
import Verif.Lemmas.Gsetc
import Verif.Props.C20

/-! Joint linearity of the kernels in right hand side and start vector. -/

namespace Istl
open Gsetc
variable {R V K : Type} [Ring R] [AddCommGroup V] [Module R V] [CommRing K] [Module K V] [SMulCommClass R K V]

/-- `f` is linear in both arguments together, on the inputs where it returns normally. -/
def JLin (K : Type) [CommRing K] {D S : Type} [AddCommGroup D] [Module K D] [AddCommGroup S] [Module K S] (f : D → S → Res S) : Prop :=
  ∀ (c : K) d e s t s' t', f d s = .ok s' → f e t = .ok t' → f (c • d + e) (c • s + t) = .ok (c • s' + t')

section
variable {D S : Type} [AddCommGroup D] [Module K D] [AddCommGroup S] [Module K S]

theorem JLin.range {g : Nat → D → S → Res S} {n : Nat} (h : ∀ i, JLin K (g i)) : JLin K fun d s => forRangeM n (fun i => g i d) s := by
  intro c d e s t s' t'
  induction n generalizing s' t' with
  | zero => intro h1 h2; injection h1 with h1; injection h2 with h2; subst h1 h2; rfl
  | succ n ih =>
    intro h1 h2
    simp only [forRangeM_succ, Res.bind_eq_ok] at h1 h2 ⊢
    obtain ⟨a, ha, ha'⟩ := h1
    obtain ⟨b, hb, hb'⟩ := h2
    exact ⟨_, ih a b ha hb, h n c d e a b s' t' ha' hb'⟩

theorem JLin.down {g : Nat → D → S → Res S} {n : Nat} (h : ∀ i, JLin K (g i)) : JLin K fun d s => forDownM n (fun i => g i d) s := by
  intro c d e s t s' t'
  induction n generalizing s t with
  | zero => intro h1 h2; injection h1 with h1; injection h2 with h2; subst h1 h2; rfl
  | succ n ih =>
    intro h1 h2
    simp only [forDownM_succ, Res.bind_eq_ok] at h1 h2 ⊢
    obtain ⟨a, ha, ha'⟩ := h1
    obtain ⟨b, hb, hb'⟩ := h2
    exact ⟨_, h n c d e s t a b ha hb, ih a b ha' hb'⟩

theorem JLin.seq {f g : D → S → Res S} (hf : JLin K f) (hg : JLin K g) : JLin K fun d s => f d s >>= g d := by
  intro c d e s t s' t' h1 h2
  simp only [Res.bind_eq_ok] at h1 h2 ⊢
  obtain ⟨a, ha, ha'⟩ := h1
  obtain ⟨b, hb, hb'⟩ := h2
  exact ⟨_, hf c d e s t a b ha hb, hg c d e a b s' t' ha' hb'⟩

theorem JLin.map {f : D → S → Res S} (hf : JLin K f) (F : S → S) (hF : ∀ (c : K) x y, F (c • x + y) = c • F x + F y) :
    JLin K fun d s => f d s >>= fun v => .ok (F v) :=
  JLin.seq hf (g := fun _ v => .ok (F v)) fun c _ _ s t s' t' h1 h2 => by
    injection h1 with h1; injection h2 with h2; subst h1 h2; exact congrArg Res.ok (hF c s t)

end

theorem residual_lin (act : R → V →+ V) (hact : ∀ a (c : K) x, act a (c • x) = c • act a x) (es : List (Nat × R)) (c : K)
    (v w : Nat → V) (x y : V) :
    Gsetc.residual act es (c • v + w) (c • x + y) = c • Gsetc.residual act es v x + Gsetc.residual act es w y := by
  unfold Gsetc.residual
  induction es generalizing x y with
  | nil => rfl
  | cons e es ih =>
    simp only [List.foldl_cons]
    rw [← ih]
    congr 1
    simp only [Pi.add_apply, Pi.smul_apply, map_add, hact, smul_sub]
    abel

theorem upd_lin (c : K) (v w : Nat → V) (i : Nat) (x y : V) : upd (c • v + w) i (c • x + y) = c • upd v i x + upd w i y := by
  funext k
  by_cases h : k = i
  · subst h; simp
  · simp [upd_ne _ _ h]

theorem act_lin (a : R) (c : K) (x : V) : Ilu.act a (c • x) = c • Ilu.act (R := R) a x := smul_comm a c x

theorem solve_lin (β : BlockSolve R V V) (hβ : ∀ a (c : K) x, β.act a (c • x) = c • β.act a x) (a : R) (c : K) (p q x y x' y' : V)
    (h1 : solveLoc β a p x = .ok x') (h2 : solveLoc β a q y = .ok y') : solveLoc β a (c • p + q) (c • x + y) = .ok (c • x' + y') := by
  unfold solveLoc at *
  cases e1 : β.solve a x with
  | none => rw [e1] at h1; cases h1
  | some x1 =>
    cases e2 : β.solve a y with
    | none => rw [e2] at h2; cases h2
    | some y1 =>
      rw [e1] at h1; rw [e2] at h2
      injection h1 with h1; injection h2 with h2
      obtain ⟨b1, b2⟩ := (β.solve_iff _ _ _).mp e1
      obtain ⟨-, b4⟩ := (β.solve_iff _ _ _).mp e2
      have : β.solve a (c • x + y) = some (c • x' + y') := by
        rw [β.solve_iff]
        refine ⟨b1, ?_⟩
        rw [map_add, hβ, ← h1, ← h2, b2, b4]
      rw [this]

theorem sorRow_lin (β : BlockSolve R V V) (hβ : ∀ a (c : K) x, β.act a (c • x) = c • β.act a x) (w : K) (A : SpMat R) (i : Nat) :
    JLin K fun (d : Nat → V) (s : (Nat → V) × V) => sorRow β.act (solveLoc β) w A d i s := by
  intro c d e s t s' t' h1 h2
  unfold sorRow at *
  cases hr : (A.row i).dropWhile (fun e => decide (e.1 < i)) with
  | nil => rw [hr] at h1; cases h1
  | cons dg up =>
    rw [hr] at h1 h2
    simp only [Res.bind_eq_ok] at h1 h2 ⊢
    obtain ⟨a, ha, ha'⟩ := h1
    obtain ⟨b, hb, hb'⟩ := h2
    injection ha' with ha'; injection hb' with hb'
    refine ⟨c • a + b, ?_, ?_⟩
    · have := solve_lin β hβ dg.2 c _ _ _ _ a b ha hb
      rw [← this, ← residual_lin β.act hβ, ← residual_lin β.act hβ]
      rfl
    · rw [← ha', ← hb']
      congr 1
      ext1
      · show upd (c • s.1 + t.1) i _ = c • upd s.1 i _ + upd t.1 i _
        rw [← upd_lin]
        congr 1
        show c • s.1 i + t.1 i + w • (c • a + b) = _
        rw [smul_add, smul_add, smul_comm w c]
        abel
      · rfl

theorem pair_lin {f : (Nat → V) → (Nat → V) × V → Res ((Nat → V) × V)} (hf : JLin K f) :
    JLin K fun d x => f d (x, x 0) >>= fun s => .ok s.1 := by
  intro c d e s t s' t' h1 h2
  simp only [Res.bind_eq_ok] at h1 h2 ⊢
  obtain ⟨a, ha, ha'⟩ := h1
  obtain ⟨b, hb, hb'⟩ := h2
  injection ha' with ha'; injection hb' with hb'
  exact ⟨_, hf c d e _ _ a b ha hb, by rw [← ha', ← hb']; rfl⟩

theorem bsorf_lin (β : BlockSolve R V V) (hβ : ∀ a (c : K) x, β.act a (c • x) = c • β.act a x) (w : K) (A : SpMat R) :
    JLin K fun (d v : Nat → V) => bsorf β.act (solveLoc β) w A d v :=
  pair_lin (JLin.range (g := fun i d s => sorRow β.act (solveLoc β) w A d i s) (sorRow_lin β hβ w A))

theorem bsorb_lin (β : BlockSolve R V V) (hβ : ∀ a (c : K) x, β.act a (c • x) = c • β.act a x) (w : K) (A : SpMat R) :
    JLin K fun (d v : Nat → V) => bsorb β.act (solveLoc β) w A d v :=
  pair_lin (JLin.down (g := fun i d s => sorRow β.act (solveLoc β) w A d i s) (sorRow_lin β hβ w A))

theorem dbjac_lin (β : BlockSolve R V V) (hβ : ∀ a (c : K) x, β.act a (c • x) = c • β.act a x) (w : K) (A : SpMat R) :
    JLin K fun (d v : Nat → V) => dbjac β.act (solveLoc β) w A d v := by
  have hl : JLin K (fun (p : (Nat → V) × (Nat → V)) (v : Nat → V) => forRangeM A.n (fun i v =>
      match (A.row i).dropWhile (fun e => decide (e.1 < i)) with
      | [] => .ub
      | dg :: up => do
        let rhs := Gsetc.residual β.act ((A.row i).takeWhile fun e => decide (e.1 < i)) p.1 (p.2 i)
        let rhs := Gsetc.residual β.act (dg :: up) p.1 rhs
        let y ← solveLoc β dg.2 (v i) rhs
        .ok (upd v i y)) v) := by
    refine JLin.range fun i => ?_
    intro c d e s t s' t' h1 h2
    dsimp only at h1 h2 ⊢
    cases hr : (A.row i).dropWhile (fun e => decide (e.1 < i)) with
    | nil => rw [hr] at h1; cases h1
    | cons dg up =>
      rw [hr] at h1 h2
      simp only [Res.bind_eq_ok] at h1 h2 ⊢
      obtain ⟨a, ha, ha'⟩ := h1
      obtain ⟨b, hb, hb'⟩ := h2
      injection ha' with ha'; injection hb' with hb'
      refine ⟨c • a + b, ?_, by rw [← ha', ← hb', ← upd_lin]⟩
      have := solve_lin β hβ dg.2 c _ _ _ _ a b ha hb
      rw [← this, ← residual_lin β.act hβ, ← residual_lin β.act hβ]
      rfl
  intro c d e s t s' t' h1 h2
  unfold dbjac at *
  simp only [Res.bind_eq_ok] at h1 h2 ⊢
  obtain ⟨a, ha, ha'⟩ := h1
  obtain ⟨b, hb, hb'⟩ := h2
  injection ha' with ha'; injection hb' with hb'
  refine ⟨_, hl c (s, d) (t, e) s t a b ha hb, ?_⟩
  rw [← ha', ← hb']
  congr 1
  funext k
  by_cases hk : k < A.n
  · simp only [hk, if_true, Pi.add_apply, Pi.smul_apply, smul_add, smul_comm w c]
    abel
  · simp [hk]

theorem bltsolve_lin (F : SpMat R) : JLin K fun (d v : Nat → V) => bltsolve (Ilu.act (R := R)) copyLoc F d v := by
  unfold bltsolve
  refine JLin.range fun i => ?_
  intro c d e s t s' t' h1 h2
  dsimp only at h1 h2 ⊢
  cases hr : (F.row i).dropWhile (fun e => decide (e.1 < i)) with
  | nil => rw [hr] at h1; cases h1
  | cons dg up =>
    rw [hr] at h1 h2
    simp only [Res.bind_eq_ok, copyLoc] at h1 h2 ⊢
    obtain ⟨a, ha, ha'⟩ := h1
    obtain ⟨b, hb, hb'⟩ := h2
    injection ha with ha; injection hb with hb
    injection ha' with ha'; injection hb' with hb'
    refine ⟨c • a + b, ?_, by rw [← ha', ← hb', ← upd_lin]⟩
    rw [← ha, ← hb, ← residual_lin _ act_lin]
    rfl

theorem upperSolve_lin (F : SpMat R) : JLin K fun (_ v : Nat → V) => Ilu.upperSolve F v := by
  unfold Ilu.upperSolve
  refine JLin.down (g := fun i _ => _) fun i => ?_
  intro c d e s t s' t' h1 h2
  dsimp only at h1 h2 ⊢
  cases hr : (F.row i).reverse.dropWhile (fun e => decide (i < e.1)) with
  | nil => rw [hr] at h1; cases h1
  | cons dg up =>
    rw [hr] at h1 h2
    injection h1 with h1; injection h2 with h2
    rw [← h1, ← h2, ← upd_lin, ← smul_comm dg.2 c, ← smul_add, ← residual_lin _ act_lin]
    rfl

theorem iluBacksolve_lin (F : SpMat R) : JLin K fun (d v : Nat → V) => Ilu.backsolve F v d :=
  JLin.seq (bltsolve_lin F) (upperSolve_lin F)

theorem diluBacksolve_lin (A : SpMat R) (D : Nat → R) : JLin K fun (d v : Nat → V) => Dilu.backsolve A D v d := by
  refine JLin.seq (f := fun d v => Dilu.lower A D d v) (g := fun _ v => Dilu.upper A D v) ?_ ?_
  · unfold Dilu.lower
    refine JLin.range fun i => ?_
    intro c d e s t s' t' h1 h2
    dsimp only at h1 h2 ⊢
    cases hr : (A.row i).dropWhile (fun e => decide (e.1 < i)) with
    | nil => rw [hr] at h1; cases h1
    | cons dg up =>
      rw [hr] at h1 h2
      injection h1 with h1; injection h2 with h2
      rw [← h1, ← h2, ← upd_lin, ← smul_comm (D i) c, ← smul_add, ← residual_lin _ act_lin]
      rfl
  · unfold Dilu.upper
    refine JLin.down (g := fun i _ => _) fun i => ?_
    intro c d e s t s' t' h1 h2
    dsimp only at h1 h2 ⊢
    cases hr : (A.row i).reverse.dropWhile (fun e => decide (i < e.1)) with
    | nil => rw [hr] at h1; cases h1
    | cons dg up =>
      rw [hr] at h1 h2
      injection h1 with h1; injection h2 with h2
      have hf : ∀ (l : List (Nat × R)) (x y : V), l.foldl (fun rhs e => rhs + e.2 • (c • s + t) e.1) (c • x + y) =
          c • l.foldl (fun rhs e => rhs + e.2 • s e.1) x + l.foldl (fun rhs e => rhs + e.2 • t e.1) y := by
        intro l
        induction l with
        | nil => intro x y; rfl
        | cons e l ih =>
          intro x y
          simp only [List.foldl_cons]
          rw [← ih]
          congr 1
          simp only [Pi.add_apply, Pi.smul_apply, smul_add, smul_comm e.2 c]
          abel
      have hf0 := hf ((A.row i).reverse.takeWhile fun e => decide (i < e.1)) 0 0
      rw [smul_zero, add_zero] at hf0
      rw [← h1, ← h2, ← upd_lin, hf0]
      congr 2
      simp only [Pi.add_apply, Pi.smul_apply, smul_add, smul_sub, smul_comm (D i) c]
      abel

theorem ildlBacksolve_lin (tr : R → R) (F : SpMat R) (isLower : Bool) :
    JLin K fun (d v : Nat → V) => Ildl.backsolve tr F isLower v d := by
  refine JLin.seq (f := fun d v => Ildl.solveL F v d) (g := fun _ v => Ildl.solveD F isLower v >>= Ildl.solveLT tr F) ?_
    (JLin.seq (f := fun _ v => Ildl.solveD F isLower v) (g := fun _ v => Ildl.solveLT tr F v) ?_ ?_)
  · refine JLin.range (g := fun i d v => Ildl.solveLStep F d i v) fun i => ?_
    intro c d e s t s' t' h1 h2
    unfold Ildl.solveLStep at *
    cases hr : (F.row i).dropWhile (fun e => decide (e.1 < i)) with
    | nil => rw [hr] at h1; cases h1
    | cons dg up =>
      rw [hr] at h1 h2
      injection h1 with h1; injection h2 with h2
      rw [← h1, ← h2]
      dsimp only
      congr 1
      have hf : ∀ (l : List (Nat × R)) (x y : Nat → V), l.foldl (fun v e => upd v i (v i - e.2 • v e.1)) (c • x + y) =
          c • l.foldl (fun v e => upd v i (v i - e.2 • v e.1)) x + l.foldl (fun v e => upd v i (v i - e.2 • v e.1)) y := by
        intro l
        induction l with
        | nil => intro x y; rfl
        | cons e l ih =>
          intro x y
          simp only [List.foldl_cons]
          rw [← ih]
          congr 1
          rw [← upd_lin]
          congr 1
          simp only [Pi.add_apply, Pi.smul_apply, smul_add, smul_sub, smul_comm e.2 c]
          abel
      rw [← hf, ← upd_lin]
      rfl
  · unfold Ildl.solveD
    refine JLin.range (g := fun i _ => _) fun i => ?_
    intro c d e s t s' t' h1 h2
    have hs : ∀ a : R, upd (c • s + t) i (a • (c • s + t) i) = c • upd s i (a • s i) + upd t i (a • t i) := by
      intro a
      rw [← upd_lin]
      congr 1
      simp only [Pi.add_apply, Pi.smul_apply, smul_add, smul_comm a c]
    dsimp only at h1 h2 ⊢
    cases isLower with
    | true =>
      simp only [if_true] at h1 h2 ⊢
      cases hr : (F.row i).getLast? with
      | none => rw [hr] at h1; cases h1
      | some a =>
        rw [hr] at h1 h2
        injection h1 with h1; injection h2 with h2
        dsimp only
        rw [hs, ← h1, ← h2]
    | false =>
      simp only [Bool.false_eq_true, if_false] at h1 h2 ⊢
      cases hf : (F.row i).find i with
      | throw e => rw [hf] at h1; cases h1
      | ub => rw [hf] at h1; cases h1
      | ok p =>
        rw [hf] at h1 h2
        rw [Res.ok_bind] at h1 h2 ⊢
        cases p with
        | none => cases h1
        | some q =>
          dsimp only at h1 h2 ⊢
          cases hr : rd (F.row i) q with
          | throw e => rw [hr] at h1; cases h1
          | ub => rw [hr] at h1; cases h1
          | ok a =>
            rw [hr, Res.ok_bind] at h1 h2
            injection h1 with h1; injection h2 with h2
            rw [Res.ok_bind, hs, ← h1, ← h2]
  · refine JLin.down (g := fun i _ v => Ildl.solveLTStep tr F i v) fun i => ?_
    intro c d e s t s' t' h1 h2
    unfold Ildl.solveLTStep at *
    cases hr : (F.row i).dropWhile (fun e => decide (e.1 < i)) with
    | nil => rw [hr] at h1; cases h1
    | cons dg up =>
      rw [hr] at h1 h2
      injection h1 with h1; injection h2 with h2
      rw [← h1, ← h2]
      dsimp only
      congr 1
      have hf : ∀ (l : List (Nat × R)) (x y : Nat → V), l.foldl (fun v e => upd v e.1 (v e.1 - tr e.2 • v i)) (c • x + y) =
          c • l.foldl (fun v e => upd v e.1 (v e.1 - tr e.2 • v i)) x + l.foldl (fun v e => upd v e.1 (v e.1 - tr e.2 • v i)) y := by
        intro l
        induction l with
        | nil => intro x y; rfl
        | cons e l ih =>
          intro x y
          simp only [List.foldl_cons]
          rw [← ih]
          congr 1
          rw [← upd_lin]
          congr 1
          simp only [Pi.add_apply, Pi.smul_apply, smul_add, smul_sub, smul_comm (tr e.2) c]
          abel
      exact hf _ _ _

theorem crsResidual_lin (l : Ilu.CRS R) (i : Nat) (c : K) (v w : Nat → V) (x y x' y' : V)
    (h1 : Ilu.crsResidual l i v x = .ok x') (h2 : Ilu.crsResidual l i w y = .ok y') :
    Ilu.crsResidual l i (c • v + w) (c • x + y) = .ok (c • x' + y') := by
  unfold Ilu.crsResidual at *
  simp only [Res.bind_eq_ok] at h1 h2 ⊢
  obtain ⟨b, hb, e, he, h1⟩ := h1
  obtain ⟨b', hb', e', he', h2⟩ := h2
  obtain rfl : b = b' := by rw [hb] at hb'; injection hb'
  obtain rfl : e = e' := by rw [he] at he'; injection he'
  refine ⟨b, hb, e, he, ?_⟩
  generalize List.range' b (e - b) = cs at *
  clear hb he hb' he'
  induction cs generalizing x y with
  | nil => injection h1 with h1; injection h2 with h2; subst h1 h2; rfl
  | cons q cs ih =>
    simp only [List.foldlM_cons, Res.bind_eq_ok] at h1 h2 ⊢
    obtain ⟨x1, ⟨a, ha, j, hj, hx1⟩, h1⟩ := h1
    obtain ⟨y1, ⟨a', ha', j', hj', hy1⟩, h2⟩ := h2
    obtain rfl : a = a' := by rw [ha] at ha'; injection ha'
    obtain rfl : j = j' := by rw [hj] at hj'; injection hj'
    refine ⟨c • x1 + y1, ⟨a, ha, j, hj, ?_⟩, ih x1 y1 h1 h2⟩
    injection hx1 with hx1; injection hy1 with hy1
    rw [← hx1, ← hy1]
    congr 1
    simp only [Pi.add_apply, Pi.smul_apply, smul_add, smul_sub, smul_comm a c]
    abel

theorem crsBacksolve_lin (lower upper : Ilu.CRS R) (inv : List R) :
    JLin K fun (d v : Nat → V) => Ilu.crsBacksolve lower upper inv v d := by
  unfold Ilu.crsBacksolve
  by_cases hne : lower.nRows ≠ upper.nRows
  · intro c d e s t s' t' h1
    dsimp only at h1
    rw [if_pos hne] at h1; cases h1
  · simp only [if_neg hne]
    refine JLin.seq (f := fun d v => forRangeM lower.nRows _ v) (g := fun _ v => forRangeM lower.nRows _ v)
      (JLin.range fun i => ?_) (JLin.range (g := fun i _ => _) fun i => ?_)
    · intro c d e s t s' t' h1 h2
      simp only [Res.bind_eq_ok] at h1 h2 ⊢
      obtain ⟨a, ha, ha'⟩ := h1
      obtain ⟨b, hb, hb'⟩ := h2
      injection ha' with ha'; injection hb' with hb'
      exact ⟨c • a + b, crsResidual_lin lower i c s t _ _ a b ha hb, by rw [← ha', ← hb', upd_lin]⟩
    · intro c d e s t s' t' h1 h2
      simp only [Res.bind_eq_ok] at h1 h2 ⊢
      obtain ⟨a, ha, p, hp, ha'⟩ := h1
      obtain ⟨b, hb, q, hq, hb'⟩ := h2
      obtain rfl : p = q := by rw [hp] at hq; injection hq
      injection ha' with ha'; injection hb' with hb'
      refine ⟨c • a + b, crsResidual_lin upper i c s t _ _ a b ha hb, p, hp, ?_⟩
      rw [← ha', ← hb', ← upd_lin, smul_add, smul_comm p c]

end Istl
