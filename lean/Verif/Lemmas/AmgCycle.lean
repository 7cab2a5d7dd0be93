import Verif.Spec.AmgCycle
import Mathlib.Tactic.Abel
import Verif.Lemmas.Vec

/-! The cursor and vector juggling of the multigrid cycle. -/

namespace Istl
namespace Amg
variable {K V : Type} [AddCommGroup V] [SMul K V]

/-- The cursor on level `l`. -/
def curAt (L l : Nat) : Cursor := ⟨min l (L - 1), l, min l (L - 1), l, l, l, l⟩

/-- A state given by functions. -/
def mkS (L : Nat) (c : Cursor) (f g h : Nat → V) (cv : Bool) : State V :=
  ⟨c, (List.range (L + 1)).map f, (List.range (L + 1)).map g, (List.range (L + 1)).map h, cv⟩

theorem mkS_cur {L : Nat} {c : Cursor} {f g h : Nat → V} {cv : Bool} : (mkS L c f g h cv).cur = c := rfl

theorem curAt_lt {L l : Nat} (h : l < L) : curAt L l = ⟨l, l, l, l, l, l, l⟩ := by
  have : min l (L - 1) = l := by omega
  simp [curAt, this]

theorem rd_map {L i : Nat} (f : Nat → V) (h : i ≤ L) : rd ((List.range (L + 1)).map f) i = .ok (f i) := by
  unfold rd
  rw [List.getElem?_map, List.getElem?_range (by omega)]
  rfl

theorem wr_map {L i : Nat} (f : Nat → V) (v : V) (h : i ≤ L) :
    wr ((List.range (L + 1)).map f) i v = .ok ((List.range (L + 1)).map (Function.update f i v)) := by
  unfold wr
  rw [if_pos (by simp; omega)]
  congr 1
  apply List.ext_getElem?
  intro j
  by_cases hj : i = j
  · subst hj
    rw [List.getElem?_set_self (by simp; omega), List.getElem?_map, List.getElem?_range (by omega)]
    simp
  · rw [List.getElem?_set_ne hj, List.getElem?_map, List.getElem?_map]
    by_cases hl : j < L + 1
    · rw [List.getElem?_range hl]
      simp [Function.update_of_ne (Ne.symm hj)]
    · rw [List.getElem?_eq_none (by simp; omega)]; rfl

theorem getLhs_mk {L : Nat} {c : Cursor} {f g h : Nat → V} {cv : Bool} (hc : c.lhs ≤ L) :
    getLhs (mkS L c f g h cv) = .ok (f c.lhs) (mkS L c f g h cv) := by
  unfold getLhs
  have : rd (mkS L c f g h cv).lhs (mkS L c f g h cv).cur.lhs = .ok (f c.lhs) := rd_map f hc
  rw [this]; rfl
theorem getUpd_mk {L : Nat} {c : Cursor} {f g h : Nat → V} {cv : Bool} (hc : c.update ≤ L) :
    getUpd (mkS L c f g h cv) = .ok (g c.update) (mkS L c f g h cv) := by
  unfold getUpd
  have : rd (mkS L c f g h cv).upd (mkS L c f g h cv).cur.update = .ok (g c.update) := rd_map g hc
  rw [this]; rfl
theorem getRhs_mk {L : Nat} {c : Cursor} {f g h : Nat → V} {cv : Bool} (hc : c.rhs ≤ L) :
    getRhs (mkS L c f g h cv) = .ok (h c.rhs) (mkS L c f g h cv) := by
  unfold getRhs
  have : rd (mkS L c f g h cv).rhs (mkS L c f g h cv).cur.rhs = .ok (h c.rhs) := rd_map h hc
  rw [this]; rfl
theorem setLhs_mk {L : Nat} {c : Cursor} {f g h : Nat → V} {cv : Bool} {v : V} (hc : c.lhs ≤ L) :
    setLhs v (mkS L c f g h cv) = .ok () (mkS L c (Function.update f c.lhs v) g h cv) := by
  unfold setLhs
  have : wr (mkS L c f g h cv).lhs (mkS L c f g h cv).cur.lhs v = .ok _ := wr_map f v hc
  rw [this]; rfl
theorem setUpd_mk {L : Nat} {c : Cursor} {f g h : Nat → V} {cv : Bool} {v : V} (hc : c.update ≤ L) :
    setUpd v (mkS L c f g h cv) = .ok () (mkS L c f (Function.update g c.update v) h cv) := by
  unfold setUpd
  have : wr (mkS L c f g h cv).upd (mkS L c f g h cv).cur.update v = .ok _ := wr_map g v hc
  rw [this]; rfl
theorem setRhs_mk {L : Nat} {c : Cursor} {f g h : Nat → V} {cv : Bool} {v : V} (hc : c.rhs ≤ L) :
    setRhs v (mkS L c f g h cv) = .ok () (mkS L c f g (Function.update h c.rhs v) cv) := by
  unfold setRhs
  have : wr (mkS L c f g h cv).rhs (mkS L c f g h cv).cur.rhs v = .ok _ := wr_map h v hc
  rw [this]; rfl

theorem addLhs_mk {L : Nat} {c : Cursor} {f g h : Nat → V} {cv : Bool} (hc : c.lhs ≤ L) (hc' : c.update ≤ L) :
    addLhs (mkS L c f g h cv) = .ok () (mkS L c f (Function.update g c.update (g c.update + f c.lhs)) h cv) := by
  unfold addLhs
  rw [Cmd.bind_ok (getLhs_mk hc), Cmd.bind_ok (getUpd_mk hc'), setUpd_mk hc']

theorem updateDefect_mk (S : Setup K V) {L : Nat} {c : Cursor} {f g h : Nat → V} {cv : Bool} (hc : c.lhs ≤ L) (hc' : c.rhs ≤ L) :
    updateDefect S (mkS L c f g h cv) =
      .ok () (mkS L c f g (Function.update h c.rhs (h c.rhs - S.mat c.matrix (f c.lhs))) cv) := by
  unfold updateDefect
  rw [Cmd.bind_ok (Cmd.get_apply _), Cmd.bind_ok (getLhs_mk hc), Cmd.bind_ok (getRhs_mk hc'), setRhs_mk hc']
  rfl

theorem preStep_mk (S : Setup K V) {L l : Nat} {f g h : Nat → V} {cv : Bool} (hl : l < L) :
    preStep S (mkS L (curAt L l) f g h cv) =
      .ok () (mkS L (curAt L l) (Function.update f l (S.pre l 0 (h l))) (Function.update g l (g l + S.pre l 0 (h l)))
        (Function.update h l (h l - S.mat l (S.pre l 0 (h l)))) cv) := by
  have h1 : (curAt L l).lhs ≤ L := by simp only [curAt]; omega
  have h2 : (curAt L l).update ≤ L := by simp only [curAt]; omega
  have h3 : (curAt L l).rhs ≤ L := by simp only [curAt]; omega
  have e1 : (curAt L l).lhs = l := rfl
  have e2 : (curAt L l).update = l := rfl
  have e3 : (curAt L l).rhs = l := rfl
  have e4 : (curAt L l).matrix = l := rfl
  have e5 : (curAt L l).smoother = l := by simp only [curAt]; omega
  unfold preStep
  rw [Cmd.bind_ok (setLhs_mk h1), Cmd.bind_ok (Cmd.get_apply _), Cmd.bind_ok (getLhs_mk h1), Cmd.bind_ok (getRhs_mk h3)]
  rw [Cmd.bind_ok (setLhs_mk h1), Cmd.bind_ok (addLhs_mk h1 h2), updateDefect_mk S h1 h3]
  simp only [mkS_cur, e1, e2, e3, e4, e5, Function.update_self, Function.update_idem]

theorem postStep_mk (S : Setup K V) {L l : Nat} {f g h : Nat → V} {cv : Bool} (hl : l < L) :
    postStep S (mkS L (curAt L l) f g h cv) =
      .ok () (mkS L (curAt L l) (Function.update f l (S.post l 0 (h l - S.mat l (f l))))
        (Function.update g l (g l + S.post l 0 (h l - S.mat l (f l))))
        (Function.update h l (h l - S.mat l (f l))) cv) := by
  have h1 : (curAt L l).lhs ≤ L := by simp only [curAt]; omega
  have h2 : (curAt L l).update ≤ L := by simp only [curAt]; omega
  have h3 : (curAt L l).rhs ≤ L := by simp only [curAt]; omega
  have e1 : (curAt L l).lhs = l := rfl
  have e2 : (curAt L l).update = l := rfl
  have e3 : (curAt L l).rhs = l := rfl
  have e4 : (curAt L l).matrix = l := rfl
  have e5 : (curAt L l).smoother = l := by simp only [curAt]; omega
  unfold postStep
  rw [Cmd.bind_ok (updateDefect_mk S h1 h3), Cmd.bind_ok (setLhs_mk h1), Cmd.bind_ok (Cmd.get_apply _),
    Cmd.bind_ok (getLhs_mk h1), Cmd.bind_ok (getRhs_mk h3)]
  rw [Cmd.bind_ok (setLhs_mk h1), addLhs_mk h1 h2]
  simp only [mkS_cur, e1, e2, e3, e4, e5, Function.update_self, Function.update_idem]

section
variable {A S : V → V} (hA : ∀ x y, A (x + y) = A x + A y)
include hA

theorem map_sub_of_add (x y : V) : A (x - y) = A x - A y := by
  have := hA (x - y) y
  rw [sub_add_cancel] at this
  rw [this]; abel

theorem map_zero_of_add : A 0 = 0 := by
  have := hA 0 0
  rw [add_zero] at this
  simpa using this.symm

theorem relax_shift (b u0 : V) : ∀ (k : Nat) (u : V), relax A S (b + A u0) k (u0 + u) = u0 + relax A S b k u := by
  intro k
  induction k with
  | zero => intro u; rfl
  | succ k ih =>
    intro u
    simp only [relax]
    rw [show b + A u0 - A (u0 + u) = b - A u by rw [hA]; abel, add_assoc, ih]

end

theorem relax_succ' (A S : V → V) (b : V) : ∀ (k : Nat) (u : V),
    relax A S b (k + 1) u = relax A S b k u + S (b - A (relax A S b k u)) := by
  intro k
  induction k with
  | zero => intro u; rfl
  | succ k ih => intro u; rw [relax, ih]; rfl

theorem update_eq_of {f g : Nat → V} {l : Nat} {v : V} (h : ∀ i, i ≠ l → g i = f i) (hv : g l = v) : g = Function.update f l v := by
  funext i
  by_cases hi : i = l
  · subst hi; simp [hv]
  · rw [Function.update_of_ne hi, h i hi]

/-- Pre-smoothing. -/
theorem pre_times (S : Setup K V) (hA : ∀ l x y, S.mat l (x + y) = S.mat l x + S.mat l y) {L l : Nat} (hl : l < L) (cv : Bool) (b : V) :
    ∀ (k : Nat) (f g h : Nat → V) (w : V), h l = b - S.mat l w → ∃ f' : Nat → V, (∀ i, i ≠ l → f' i = f i) ∧
      times (preStep S) k (mkS L (curAt L l) f g h cv) = .ok () (mkS L (curAt L l) f'
        (Function.update g l (g l + (relax (S.mat l) (S.pre l 0) b k w - w)))
        (Function.update h l (b - S.mat l (relax (S.mat l) (S.pre l 0) b k w))) cv) := by
  intro k
  induction k with
  | zero =>
    intro f g h w hw
    refine ⟨f, fun _ _ => rfl, ?_⟩
    simp [times, relax, ← hw]
  | succ k ih =>
    intro f g h w hw
    unfold times
    rw [Cmd.bind_ok (preStep_mk S hl)]
    obtain ⟨f', hf', e⟩ := ih (Function.update f l (S.pre l 0 (h l))) (Function.update g l (g l + S.pre l 0 (h l)))
      (Function.update h l (h l - S.mat l (S.pre l 0 (h l)))) (w + S.pre l 0 (h l))
      (by rw [Function.update_self, hA, hw]; abel)
    refine ⟨f', fun i hi => (hf' i hi).trans (Function.update_of_ne hi _ _), ?_⟩
    rw [e]
    simp only [relax, Function.update_self, Function.update_idem, hw]
    congr 2
    congr 1
    abel

/-- Post-smoothing, with the increment in `lhs` not yet subtracted from the defect. -/
theorem post_times (S : Setup K V) (hA : ∀ l x y, S.mat l (x + y) = S.mat l x + S.mat l y) {L l : Nat} (hl : l < L) (cv : Bool) (b : V) :
    ∀ (k : Nat) (f g h : Nat → V) (w : V), h l = b - S.mat l (w - f l) → ∃ f' : Nat → V, (∀ i, i ≠ l → f' i = f i) ∧
      times (postStep S) k (mkS L (curAt L l) f g h cv) = .ok () (mkS L (curAt L l) f'
        (Function.update g l (g l + (relax (S.mat l) (S.post l 0) b k w - w)))
        (Function.update h l (b - S.mat l (relax (S.mat l) (S.post l 0) b k w - f' l))) cv) := by
  intro k
  induction k with
  | zero =>
    intro f g h w hw
    refine ⟨f, fun _ _ => rfl, ?_⟩
    simp [times, relax, ← hw]
  | succ k ih =>
    intro f g h w hw
    unfold times
    rw [Cmd.bind_ok (postStep_mk S hl)]
    have hd : h l - S.mat l (f l) = b - S.mat l w := by
      rw [hw, map_sub_of_add (hA l)]; abel
    rw [hd]
    obtain ⟨f', hf', e⟩ := ih (Function.update f l (S.post l 0 (b - S.mat l w))) (Function.update g l (g l + S.post l 0 (b - S.mat l w)))
      (Function.update h l (b - S.mat l w)) (w + S.post l 0 (b - S.mat l w))
      (by rw [Function.update_self, Function.update_self, add_sub_cancel_right])
    refine ⟨f', fun i hi => (hf' i hi).trans (Function.update_of_ne hi _ _), ?_⟩
    rw [e]
    simp only [relax, Function.update_self, Function.update_idem]
    congr 2
    congr 1
    abel

theorem moveToCoarse_mk (S : Setup K V) {l : Nat} (hl : l < S.coarsest) (f g h : Nat → V) (cv : Bool) :
    moveToCoarse S (mkS S.coarsest (curAt S.coarsest l) f g h cv) = .ok () (mkS S.coarsest (curAt S.coarsest (l + 1)) f
      (Function.update g (l + 1) 0) (Function.update h (l + 1) (S.restr l (h l))) cv) := by
  rw [curAt_lt hl]
  unfold moveToCoarse
  rw [Cmd.bind_ok (getRhs_mk (by dsimp only; omega)), Cmd.bind_ok (Cmd.get_apply _), Cmd.bind_ok (Cmd.modify_apply _ _)]
  rw [show ({ (mkS S.coarsest ⟨l, l, l, l, l, l, l⟩ f g h cv) with
      cur := { (mkS S.coarsest ⟨l, l, l, l, l, l, l⟩ f g h cv).cur with rhs := (mkS S.coarsest ⟨l, l, l, l, l, l, l⟩ f g h cv).cur.rhs + 1 } } : State V) =
    mkS S.coarsest ⟨l, l, l, l, l, l + 1, l⟩ f g h cv from rfl]
  rw [Cmd.bind_ok (setRhs_mk (by dsimp only; omega)), Cmd.bind_ok (Cmd.modify_apply _ _), Cmd.bind_ok (Cmd.modify_apply _ _)]
  refine Eq.trans (congrArg _ ?_) (setUpd_mk (L := S.coarsest) (c := curAt S.coarsest (l + 1)) (f := f) (g := g)
    (h := Function.update h (l + 1) (S.restr l (h l))) (cv := cv) (v := 0) (by simp only [curAt]; omega))
  simp only [mkS_cur]
  by_cases hc : l + 1 = S.coarsest
  · refine (if_neg (not_not.mpr hc)).trans ?_
    have : min (l + 1) (S.coarsest - 1) = l := by omega
    simp [mkS, curAt, this]
  · refine (if_pos hc).trans ?_
    have : min (l + 1) (S.coarsest - 1) = l + 1 := by omega
    simp [mkS, curAt, this]

theorem moveToFine_mk (S : Setup K V) {l : Nat} (hl : l < S.coarsest) (f g h : Nat → V) (cv : Bool) :
    ∃ g', (∀ i, i ≠ l + 1 → i ≠ l → g' i = g i) ∧ g' l = g l + S.prol l (S.damp • g (l + 1)) ∧
    moveToFine S (mkS S.coarsest (curAt S.coarsest (l + 1)) f g h cv) = .ok () (mkS S.coarsest (curAt S.coarsest l)
      (Function.update f l (S.prol l (S.damp • g (l + 1)))) g' h cv) := by
  refine ⟨Function.update (Function.update g (l + 1) (S.damp • g (l + 1))) l (g l + S.prol l (S.damp • g (l + 1))), ?_, ?_, ?_⟩
  · intro i h1 h2
    rw [Function.update_of_ne h2, Function.update_of_ne h1]
  · simp
  unfold moveToFine
  rw [Cmd.bind_ok (Cmd.modify_apply _ _), Cmd.bind_ok (Cmd.modify_apply _ _)]
  have hcur : (if (mkS S.coarsest (curAt S.coarsest (l + 1)) f g h cv).cur.matrix ≠ S.coarsest then
      { (mkS S.coarsest (curAt S.coarsest (l + 1)) f g h cv) with cur := { (mkS S.coarsest (curAt S.coarsest (l + 1)) f g h cv).cur with
        smoother := (mkS S.coarsest (curAt S.coarsest (l + 1)) f g h cv).cur.smoother - 1,
        aggregates := (mkS S.coarsest (curAt S.coarsest (l + 1)) f g h cv).cur.aggregates - 1 } }
      else (mkS S.coarsest (curAt S.coarsest (l + 1)) f g h cv)) =
      mkS S.coarsest ⟨l, l + 1, l, l + 1, l + 1, l + 1, l + 1⟩ f g h cv := by
    by_cases hc : l + 1 = S.coarsest
    · rw [if_neg (by simp [mkS, curAt, hc])]
      have : min (l + 1) (S.coarsest - 1) = l := by omega
      simp [mkS, curAt, this]
    · rw [if_pos (by simpa [mkS, curAt] using hc)]
      have : min (l + 1) (S.coarsest - 1) - 1 = l := by omega
      simp [mkS, curAt, this]
  rw [hcur]
  rw [show ({ (mkS S.coarsest ⟨l, l + 1, l, l + 1, l + 1, l + 1, l + 1⟩ f g h cv) with
      cur := { (mkS S.coarsest ⟨l, l + 1, l, l + 1, l + 1, l + 1, l + 1⟩ f g h cv).cur with
        level := (mkS S.coarsest ⟨l, l + 1, l, l + 1, l + 1, l + 1, l + 1⟩ f g h cv).cur.level - 1,
        matrix := (mkS S.coarsest ⟨l, l + 1, l, l + 1, l + 1, l + 1, l + 1⟩ f g h cv).cur.matrix - 1,
        lhs := (mkS S.coarsest ⟨l, l + 1, l, l + 1, l + 1, l + 1, l + 1⟩ f g h cv).cur.lhs - 1 } } : State V) =
    mkS S.coarsest ⟨l, l, l, l, l + 1, l + 1, l⟩ f g h cv from rfl]
  rw [Cmd.bind_ok (setLhs_mk (by dsimp only; omega)), Cmd.bind_ok (getUpd_mk (by dsimp only; omega)),
    Cmd.bind_ok (setUpd_mk (by dsimp only; omega)), Cmd.bind_ok (getUpd_mk (by dsimp only; omega)),
    Cmd.bind_ok (getLhs_mk (by dsimp only; omega)), Cmd.bind_ok (Cmd.get_apply _), Cmd.bind_ok (setLhs_mk (by dsimp only; omega)),
    Cmd.bind_ok (Cmd.modify_apply _ _)]
  refine Eq.trans (congrArg addLhs ?_) ((addLhs_mk (L := S.coarsest) (c := ⟨l, l, l, l, l, l, l⟩)
    (f := Function.update f l (S.prol l (S.damp • g (l + 1)))) (g := Function.update g (l + 1) (S.damp • g (l + 1))) (h := h) (cv := cv)
    (by dsimp only; omega) (by dsimp only; omega)).trans ?_)
  · simp [mkS]
  · have : curAt S.coarsest l = ⟨l, l, l, l, l, l, l⟩ := by
      simp only [curAt]
      have : min l (S.coarsest - 1) = l := by omega
      rw [this]
    rw [this]
    simp

end Amg
end Istl
