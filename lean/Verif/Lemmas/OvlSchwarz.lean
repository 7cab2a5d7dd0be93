import Verif.Spec.OvlSchwarz
import Verif.Lemmas.Gsetc
import Mathlib.Algebra.Module.Pi

/-! # The overlapping Schwarz loop -/

namespace Istl
namespace Ovl

variable {R K V : Type} [AddCommGroup V]

theorem residual_resid (act : R → V →+ V) (A : SpMat R) (b x : Nat → V) (g : Nat) :
    Gsetc.residual act (A.row g) x (b g) = resid act A b x g := by
  rw [Gsetc.residual_eq]
  simp [resid, SpMat.apply, SpMat.partSum]

theorem rowOf_ok {A : SpMat R} {g : Nat} {r : Row R} (h : rowOf A g = .ok r) : g < A.n ∧ r = A.row g := by
  unfold rowOf at h
  split at h
  · cases h; exact ⟨by assumption, rfl⟩
  · cases h

theorem inLocal_ok {ml i : Nat} {u : Unit} (h : inLocal ml i = .ok u) : i < ml := by
  unfold inLocal at h
  split at h
  · assumption
  · cases h

section
variable [SMul K V]

theorem assign_spec (act : R → V →+ V) (o : Obj R K V) (b : Nat → V) : ∀ (D : List Nat) (i : Nat) (w w' : Work V),
    assign act o b i D w = .ok w' → w'.x = w.x ∧ w'.v = w.v ∧ (∀ g ∈ D, g < o.mat.n) ∧ (D ≠ [] → i + D.length ≤ o.maxlength) ∧
      (∀ k (h : k < D.length), w'.rhs (i + k) = resid act o.mat b w.x D[k]) ∧ ∀ k < i, w'.rhs k = w.rhs k := by
  intro D
  induction D with
  | nil =>
    intro i w w' h
    simp only [assign, Res.ok.injEq] at h
    subst h
    simp
  | cons g gs ih =>
    intro i w w' h
    simp only [assign, Res.bind_eq_ok] at h
    obtain ⟨r, hr, u, hu, h⟩ := h
    obtain ⟨hg, rfl⟩ := rowOf_ok hr
    have hi := inLocal_ok hu
    obtain ⟨h1, h2, h3, h4, h5, h6⟩ := ih _ _ _ h
    refine ⟨h1, h2, ?_, ?_, ?_, ?_⟩
    · intro q hq
      rcases List.mem_cons.1 hq with rfl | hq
      · exact hg
      · exact h3 q hq
    · intro _
      cases gs with
      | nil => simpa using hi
      | cons a t => have := h4 (by simp); simp only [List.length_cons] at this ⊢; omega
    · intro k hk
      cases k with
      | zero =>
        have := h6 i (by omega)
        simp only [upd_same] at this
        simp only [Nat.add_zero, List.getElem_cons_zero, this, residual_resid]
      | succ k =>
        have := h5 k (by simpa using hk)
        simp only [List.getElem_cons_succ]
        rw [show i + (k + 1) = i + 1 + k by omega, this]
    · intro k hk
      have := h6 k (by omega)
      rw [this]
      simp only
      rw [upd_ne _ _ (by omega)]

theorem assign_total (act : R → V →+ V) (o : Obj R K V) (b : Nat → V) : ∀ (D : List Nat) (i : Nat) (w : Work V),
    (∀ g ∈ D, g < o.mat.n) → i + D.length ≤ o.maxlength → ∃ w', assign act o b i D w = .ok w' := by
  intro D
  induction D with
  | nil => intro i w _ _; exact ⟨w, rfl⟩
  | cons g gs ih =>
    intro i w hg hl
    simp only [List.length_cons] at hl
    obtain ⟨w', h⟩ := ih (i + 1) { w with rhs := upd w.rhs i (Gsetc.residual act (o.mat.row g) w.x (b g)), lhs := if o.dyn then 0 else w.lhs }
      (fun q hq => hg q (by simp [hq])) (by omega)
    refine ⟨w', ?_⟩
    simp only [assign, rowOf, if_pos (hg g (by simp)), inLocal, if_pos (show i < o.maxlength by omega), Res.ok_bind]
    exact h

theorem idx_shift (g q : Nat) (gs : List Nat) (hne : g ≠ q) : (g :: gs).idxOf q = gs.idxOf q + 1 := by
  exact List.idxOf_cons_ne gs hne

/-- the additive adder -/
theorem add_additive (o : Obj R K V) : ∀ (D : List Nat) (i : Nat) (w w' : Work V), D.Nodup →
    add .additive o i D w = .ok w' → w'.x = w.x ∧ w'.v = w.v + spread D (fun k => w.lhs (i + k)) := by
  intro D
  induction D with
  | nil =>
    intro i w w' _ h
    simp only [add, Res.ok.injEq] at h
    subst h
    refine ⟨rfl, ?_⟩
    funext g
    simp [spread]
  | cons g gs ih =>
    intro i w w' hnd h
    simp only [add, Res.bind_eq_ok] at h
    obtain ⟨u, hu, r, hr, h⟩ := h
    obtain ⟨hg, hnd'⟩ := List.nodup_cons.1 hnd
    obtain ⟨h1, h2⟩ := ih _ _ _ hnd' h
    refine ⟨h1, ?_⟩
    rw [h2]
    funext q
    simp only [Pi.add_apply, spread]
    by_cases e : q = g
    · subst e
      rw [if_neg hg, upd_same, if_pos (by simp)]
      simp
    · rw [upd_ne _ _ e]
      by_cases hq : q ∈ gs
      · rw [if_pos hq, if_pos (by simp [hq]), idx_shift _ _ _ (Ne.symm e)]
        congr 2; omega
      · rw [if_neg hq, if_neg (by simp [hq, e])]

/-- the multiplicative adder, block-wise relaxation -/
theorem add_mult (mode : Mode) (hm : mode ≠ .additive) (o : Obj R K V) (hdyn : o.dyn = false) : ∀ (D : List Nat) (i : Nat) (w w' : Work V), D.Nodup →
    add mode o i D w = .ok w' → w'.v = w.v ∧ w'.x = w.x + spread D (fun k => o.relax • w.lhs (i + k)) := by
  intro D
  induction D with
  | nil =>
    intro i w w' _ h
    simp only [add, Res.ok.injEq] at h
    subst h
    refine ⟨rfl, ?_⟩
    funext g
    simp [spread]
  | cons g gs ih =>
    intro i w w' hnd h
    simp only [add, Res.bind_eq_ok] at h
    obtain ⟨u, hu, r, hr, h⟩ := h
    obtain ⟨hg, hnd'⟩ := List.nodup_cons.1 hnd
    have h' : add mode o (i + 1) gs { w with lhs := relaxResult o i w.lhs, x := upd w.x g (w.x g + relaxResult o i w.lhs i) } = .ok w' := by
      cases mode with
      | additive => exact absurd rfl hm
      | multiplicative => exact h
      | symmetric => exact h
    obtain ⟨h1, h2⟩ := ih _ _ _ hnd' h'
    refine ⟨h1, ?_⟩
    rw [h2]
    funext q
    simp only [Pi.add_apply, spread, relaxResult, hdyn, Bool.false_eq_true, if_false]
    by_cases e : q = g
    · subst e
      rw [if_neg hg, upd_same, upd_same, if_pos (by simp)]
      simp
    · rw [upd_ne _ _ e]
      by_cases hq : q ∈ gs
      · rw [if_pos hq, if_pos (by simp [hq]), idx_shift _ _ _ (Ne.symm e), upd_ne _ _ (by omega)]
        congr 3; omega
      · rw [if_neg hq, if_neg (by simp [hq, e])]

/-- the multiplicative adder of the dense version: the whole local vector is relaxed for each index -/
theorem add_dyn (mode : Mode) (hm : mode ≠ .additive) (o : Obj R K V) (hdyn : o.dyn = true) : ∀ (D : List Nat) (i : Nat) (w w' : Work V), D.Nodup →
    add mode o i D w = .ok w' → w'.v = w.v ∧ w'.x = w.x + spread D (fun k => (o.relax • ·)^[k + 1] (w.lhs (i + k))) := by
  intro D
  induction D with
  | nil =>
    intro i w w' _ h
    simp only [add, Res.ok.injEq] at h
    subst h
    refine ⟨rfl, ?_⟩
    funext g
    simp [spread]
  | cons g gs ih =>
    intro i w w' hnd h
    simp only [add, Res.bind_eq_ok] at h
    obtain ⟨u, hu, r, hr, h⟩ := h
    obtain ⟨hg, hnd'⟩ := List.nodup_cons.1 hnd
    have h' : add mode o (i + 1) gs { w with lhs := relaxResult o i w.lhs, x := upd w.x g (w.x g + relaxResult o i w.lhs i) } = .ok w' := by
      cases mode with
      | additive => exact absurd rfl hm
      | multiplicative => exact h
      | symmetric => exact h
    obtain ⟨h1, h2⟩ := ih _ _ _ hnd' h'
    refine ⟨h1, ?_⟩
    rw [h2]
    funext q
    simp only [Pi.add_apply, spread, relaxResult, hdyn, if_true]
    by_cases e : q = g
    · subst e
      rw [if_neg hg, upd_same, if_pos (by simp)]
      simp
    · rw [upd_ne _ _ e]
      by_cases hq : q ∈ gs
      · rw [if_pos hq, if_pos (by simp [hq]), idx_shift _ _ _ (Ne.symm e), ← Function.iterate_succ_apply]
        congr 3; omega
      · rw [if_neg hq, if_neg (by simp [hq, e])]

theorem add_total (mode : Mode) (o : Obj R K V) : ∀ (D : List Nat) (i : Nat) (w : Work V),
    (∀ g ∈ D, g < o.mat.n) → i + D.length ≤ o.maxlength → ∃ w', add mode o i D w = .ok w' := by
  intro D
  induction D with
  | nil => intro i w _ _; exact ⟨w, rfl⟩
  | cons g gs ih =>
    intro i w hg hl
    simp only [List.length_cons] at hl
    have h := fun w => ih (i + 1) w (fun q hq => hg q (by simp [hq])) (by omega)
    simp only [add, rowOf, if_pos (hg g (by simp)), inLocal, if_pos (show i < o.maxlength by omega), Res.ok_bind]
    cases mode <;> exact h _

/-- The stored solvers are those of the domains. -/
def Stored (mk : SpMat R → List Nat → Res (Solver V)) (A : SpMat R) (doms : List (List Nat)) (ss : List (Solver V)) : Prop :=
  List.Forall₂ (fun D S => mk A D = .ok S) doms ss

theorem loop_mult (mk : SpMat R → List Nat → Res (Solver V)) (act : R → V →+ V) (mode : Mode) (hm : mode ≠ .additive) (o : Obj R K V)
    (hdyn : o.dyn = true → ∀ v : V, o.relax • v = v) (hw : o.relax • (0 : V) = 0) {P : List Nat → (Nat → V) → (Nat → V) → Prop}
    (hP : Answers mk o.mat P) (b : Nat → V) : ∀ (doms : List (List Nat)) (ss : List (Solver V)) (w w' : Work V),
    (∀ D ∈ doms, D.Pairwise (· < ·)) → (o.solvers = none ∨ Stored mk o.mat doms ss) →
    domainLoop mk act mode o b doms ss w = .ok w' → Successive act o.mat P o.relax b doms w.x w'.x := by
  intro doms
  induction doms with
  | nil =>
    intro ss w w' _ _ h
    simp only [domainLoop, Res.ok.injEq] at h
    subst h
    exact .nil _
  | cons D doms ih =>
    intro ss w w' hs hss h
    simp only [domainLoop, Res.bind_eq_ok] at h
    obtain ⟨w1, h1, S, hS, l, hl, w2, h2, h3⟩ := h
    obtain ⟨e1, e2, e3, e4, e5, -⟩ := assign_spec act o b D 0 w w1 h1
    have hD := hs D (by simp)
    have hmk : mk o.mat D = .ok S := by
      unfold solverFor at hS
      rcases hss with hss | hss
      · rw [hss] at hS; exact hS
      · cases hss with
        | cons q qs =>
          cases ho : o.solvers with
          | none => rw [ho] at hS; exact hS
          | some l =>
            rw [ho] at hS
            simp only [List.head?_cons, Res.ok.injEq] at hS
            subst hS; exact q
    have hc := hP D S hD e3 hmk w1.lhs w1.rhs (resid act o.mat b w.x) l (fun k hk => by simpa using e5 k hk) hl
    have hnd : D.Nodup := hD.imp (fun h => Nat.ne_of_lt h)
    have hx : w2.x = w.x + o.relax • spread D l := by
      have hsp : spread D (fun k => o.relax • l k) = o.relax • spread D l := by
        funext g
        simp only [spread, Pi.smul_apply]
        split
        · rfl
        · exact hw.symm
      cases hd : o.dyn with
      | false =>
        have := (add_mult mode hm o hd D 0 _ w2 hnd h2).2
        simp only [Nat.zero_add] at this
        rw [this, e1, hsp]
      | true =>
        have := (add_dyn mode hm o hd D 0 _ w2 hnd h2).2
        simp only [Nat.zero_add] at this
        have hid : (fun v : V => o.relax • v) = id := by funext v; exact hdyn hd v
        rw [this, e1, ← hsp]
        congr 2
        funext k
        rw [hid, Function.iterate_id, id, hdyn hd]
    refine .cons hc ?_
    rw [← hx]
    refine ih ss.tail w2 w' (fun D' h => hs D' (by simp [h])) ?_ h3
    rcases hss with hss | hss
    · exact .inl hss
    · cases hss with
      | cons q qs => exact .inr qs

theorem loop_add (mk : SpMat R → List Nat → Res (Solver V)) (act : R → V →+ V) (o : Obj R K V)
    {P : List Nat → (Nat → V) → (Nat → V) → Prop}
    (hP : Answers mk o.mat P) (b : Nat → V) : ∀ (doms : List (List Nat)) (ss : List (Solver V)) (w w' : Work V),
    (∀ D ∈ doms, D.Pairwise (· < ·)) → (o.solvers = none ∨ Stored mk o.mat doms ss) →
    domainLoop mk act .additive o b doms ss w = .ok w' → w'.x = w.x ∧
      ∃ cs : List (Nat → V), List.Forall₂ (fun D c => P D (resid act o.mat b w.x) c) doms cs ∧ w'.v = w.v + cs.sum := by
  intro doms
  induction doms with
  | nil =>
    intro ss w w' _ _ h
    simp only [domainLoop, Res.ok.injEq] at h
    subst h
    exact ⟨rfl, [], .nil, by simp⟩
  | cons D doms ih =>
    intro ss w w' hs hss h
    simp only [domainLoop, Res.bind_eq_ok] at h
    obtain ⟨w1, h1, S, hS, l, hl, w2, h2, h3⟩ := h
    obtain ⟨e1, e2, e3, e4, e5, -⟩ := assign_spec act o b D 0 w w1 h1
    have hD := hs D (by simp)
    have hmk : mk o.mat D = .ok S := by
      unfold solverFor at hS
      rcases hss with hss | hss
      · rw [hss] at hS; exact hS
      · cases hss with
        | cons q qs =>
          cases ho : o.solvers with
          | none => rw [ho] at hS; exact hS
          | some l =>
            rw [ho] at hS
            simp only [List.head?_cons, Res.ok.injEq] at hS
            subst hS; exact q
    have hc := hP D S hD e3 hmk w1.lhs w1.rhs (resid act o.mat b w.x) l (fun k hk => by simpa using e5 k hk) hl
    have hnd : D.Nodup := hD.imp (fun h => Nat.ne_of_lt h)
    obtain ⟨f1, f2⟩ := add_additive o D 0 _ w2 hnd h2
    simp only [Nat.zero_add] at f1 f2
    obtain ⟨g1, cs, g2, g3⟩ := ih ss.tail w2 w' (fun D' h => hs D' (by simp [h])) (by
      rcases hss with hss | hss
      · exact .inl hss
      · cases hss with
        | cons q qs => exact .inr qs) h3
    rw [f1, e1] at g1 g2
    refine ⟨g1, spread D l :: cs, .cons hc g2, ?_⟩
    rw [g3, f2, e2, List.sum_cons, add_assoc]

theorem loop_total (mk : SpMat R → List Nat → Res (Solver V)) (act : R → V →+ V) (mode : Mode) (o : Obj R K V) (b : Nat → V) :
    ∀ (doms : List (List Nat)) (ss : List (Solver V)) (w : Work V),
    (∀ D ∈ doms, D.length ≤ o.maxlength ∧ (∀ g ∈ D, g < o.mat.n) ∧ ∃ S, mk o.mat D = .ok S ∧ ∀ l d, ∃ y, S l d = .ok y) →
    (o.solvers = none ∨ Stored mk o.mat doms ss) → ∃ w', domainLoop mk act mode o b doms ss w = .ok w' := by
  intro doms
  induction doms with
  | nil => intro ss w _ _; exact ⟨w, rfl⟩
  | cons D doms ih =>
    intro ss w h hss
    obtain ⟨hl, hg, S, hS, hSt⟩ := h D (by simp)
    obtain ⟨w1, h1⟩ := assign_total act o b D 0 w hg (by omega)
    have hsf : solverFor mk o D ss.head? = .ok S := by
      unfold solverFor
      rcases hss with hss | hss
      · rw [hss]; exact hS
      · cases hss with
        | cons q qs =>
          cases ho : o.solvers with
          | none => exact hS
          | some l =>
            rw [hS] at q
            injection q with q
            subst q; rfl
    obtain ⟨y, hy⟩ := hSt w1.lhs w1.rhs
    obtain ⟨w2, h2⟩ := add_total mode o D 0 { w1 with lhs := y } hg (by omega)
    obtain ⟨w', h3⟩ := ih ss.tail w2 (fun D' h' => h D' (by simp [h'])) (by
      rcases hss with hss | hss
      · exact .inl hss
      · cases hss with
        | cons q qs => exact .inr qs)
    refine ⟨w', ?_⟩
    simp only [domainLoop, h1, Res.ok_bind, hsf, hy, h2]
    exact h3

theorem Successive.append {act : R → V →+ V} {A : SpMat R} {P : List Nat → (Nat → V) → (Nat → V) → Prop} {w : K} {b : Nat → V}
    {l m : List (List Nat)} {x y z : Nat → V} (h : Successive act A P w b l x y) (h' : Successive act A P w b m y z) :
    Successive act A P w b (l ++ m) x z := by
  induction h with
  | nil => exact h'
  | cons hc h ih => exact .cons hc (ih h')

end

end Ovl
end Istl
