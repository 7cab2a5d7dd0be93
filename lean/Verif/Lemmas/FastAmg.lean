import Verif.Lemmas.FastSmooth
import Verif.Lemmas.SorEnergy

/-! The cycle of FastAMG. -/

namespace Istl
open Gsetc SpMat
namespace FastAmg
variable {B X K : Type} [AddCommGroup X]

/-- The value of a `Domain&`. -/
def State.xv (s : State X) : XRef → (Nat → X)
  | .user => s.v
  | .lhs k => s.lhs k
/-- The value of a `Range&`. -/
def State.bv (s : State X) : BRef → (Nat → X)
  | .user => s.d
  | .rhs k => s.rhs k
def State.putX (s : State X) (x : Nat → X) : XRef → State X
  | .user => { s with v := x }
  | .lhs k => { s with lhs := fun j => if j = k then x else s.lhs j }
def State.putB (s : State X) (x : Nat → X) : BRef → State X
  | .user => { s with d := x }
  | .rhs k => { s with rhs := fun j => if j = k then x else s.rhs j }
def State.putRes (s : State X) (x : Nat → X) : State X := { s with residual := fun j => if j = s.cur.residual then x else s.residual j }

/-- References used on level `l`. -/
def xAt (l : Nat) : XRef := if l = 0 then .user else .lhs l
def bAt (l : Nat) : BRef := if l = 0 then .user else .rhs l
/-- The cursor on level `l`. -/
def curAt (L l : Nat) : Cursor := ⟨l, if l < L then l else L - 1, l, l, l⟩

section basic
variable [SMul K X] (S : Setup B X K)

theorem inside_ok {k : Nat} (h : k ≤ S.coarsest) (s : State X) : (inside S k : MG X Unit) s = .ok () s := by
  unfold inside; rw [if_pos h]; rfl

theorem getX_at {l : Nat} (h : l ≤ S.coarsest) (s : State X) : getX S (xAt l) s = .ok (s.xv (xAt l)) s := by
  by_cases h0 : l = 0
  · simp [xAt, h0]; rfl
  · simp only [xAt, if_neg h0, getX]
    rw [Cmd.bind_ok (inside_ok S h s)]; rfl
theorem getX_lhs {k : Nat} (h : k ≤ S.coarsest) (s : State X) : getX S (.lhs k) s = .ok (s.lhs k) s := by
  simp only [getX]
  rw [Cmd.bind_ok (inside_ok S h s)]; rfl

theorem getB_at {l : Nat} (h : l ≤ S.coarsest) (s : State X) : getB S (bAt l) s = .ok (s.bv (bAt l)) s := by
  by_cases h0 : l = 0
  · simp [bAt, h0]; rfl
  · simp only [bAt, if_neg h0, getB]
    rw [Cmd.bind_ok (inside_ok S h s)]; rfl

theorem setX_at {l : Nat} (h : l ≤ S.coarsest) (x : Nat → X) (s : State X) : setX S x (xAt l) s = .ok () (s.putX x (xAt l)) := by
  by_cases h0 : l = 0
  · simp [xAt, h0]; rfl
  · simp only [xAt, if_neg h0, setX]
    rw [Cmd.bind_ok (inside_ok S h s)]; rfl
theorem setX_lhs {k : Nat} (h : k ≤ S.coarsest) (x : Nat → X) (s : State X) : setX S x (.lhs k) s = .ok () (s.putX x (.lhs k)) := by
  simp only [setX]
  rw [Cmd.bind_ok (inside_ok S h s)]; rfl

theorem setB_at {l : Nat} (h : l ≤ S.coarsest) (x : Nat → X) (s : State X) : setB S x (bAt l) s = .ok () (s.putB x (bAt l)) := by
  by_cases h0 : l = 0
  · simp [bAt, h0]; rfl
  · simp only [bAt, if_neg h0, setB]
    rw [Cmd.bind_ok (inside_ok S h s)]; rfl
theorem setB_rhs {k : Nat} (h : k ≤ S.coarsest) (x : Nat → X) (s : State X) : setB S x (.rhs k) s = .ok () (s.putB x (.rhs k)) := by
  simp only [setB]
  rw [Cmd.bind_ok (inside_ok S h s)]; rfl

theorem getRes_ok {s : State X} (h : s.cur.residual ≤ S.coarsest) : getRes S s = .ok (s.residual s.cur.residual) s := by
  simp only [getRes]
  rw [Cmd.bind_ok (Cmd.get_apply s), Cmd.bind_ok (inside_ok S h s)]; rfl

theorem setRes_ok {s : State X} (h : s.cur.residual ≤ S.coarsest) (x : Nat → X) : setRes S x s = .ok () (s.putRes x) := by
  simp only [setRes]
  rw [Cmd.bind_ok (Cmd.get_apply s), Cmd.bind_ok (inside_ok S h s)]; rfl

@[simp] theorem putX_cur (s : State X) (x : Nat → X) (r : XRef) : (s.putX x r).cur = s.cur := by cases r <;> rfl
@[simp] theorem putB_cur (s : State X) (x : Nat → X) (r : BRef) : (s.putB x r).cur = s.cur := by cases r <;> rfl
@[simp] theorem putRes_cur (s : State X) (x : Nat → X) : (s.putRes x).cur = s.cur := rfl
@[simp] theorem putX_conv (s : State X) (x : Nat → X) (r : XRef) : (s.putX x r).conv = s.conv := by cases r <;> rfl
@[simp] theorem putB_conv (s : State X) (x : Nat → X) (r : BRef) : (s.putB x r).conv = s.conv := by cases r <;> rfl
@[simp] theorem putRes_conv (s : State X) (x : Nat → X) : (s.putRes x).conv = s.conv := rfl
@[simp] theorem putX_residual (s : State X) (x : Nat → X) (r : XRef) : (s.putX x r).residual = s.residual := by cases r <;> rfl
@[simp] theorem putX_rhs (s : State X) (x : Nat → X) (r : XRef) : (s.putX x r).rhs = s.rhs := by cases r <;> rfl
@[simp] theorem putX_d (s : State X) (x : Nat → X) (r : XRef) : (s.putX x r).d = s.d := by cases r <;> rfl
@[simp] theorem putX_bv (s : State X) (x : Nat → X) (r : XRef) (q : BRef) : (s.putX x r).bv q = s.bv q := by cases r <;> cases q <;> rfl
@[simp] theorem putRes_bv (s : State X) (x : Nat → X) (q : BRef) : (s.putRes x).bv q = s.bv q := by cases q <;> rfl
@[simp] theorem putX_xv (s : State X) (x : Nat → X) (r : XRef) : (s.putX x r).xv r = x := by cases r <;> simp [State.putX, State.xv]
@[simp] theorem putRes_xv (s : State X) (x : Nat → X) (r : XRef) : (s.putRes x).xv r = s.xv r := by cases r <;> rfl

theorem doPre_ok (β : BlockSolve B X X) {l : Nat} (h : l ≤ S.coarsest) (s : State X) (hc : s.cur = curAt S.coarsest l)
    (p : (Nat → X) × (Nat → X)) (hp : presmooth β (S.mat l) (s.bv (bAt l)) (s.xv (xAt l)) (s.residual l) = .ok p) :
    doPre β S (xAt l) (bAt l) s = .ok () ((s.putX p.1 (xAt l)).putRes p.2) := by
  have hr : s.cur.residual = l := by rw [hc]; rfl
  have hm : s.cur.matrix = l := by rw [hc]; rfl
  unfold doPre
  rw [Cmd.bind_ok (Cmd.get_apply s), Cmd.bind_ok (getX_at S h s), Cmd.bind_ok (getB_at S h s),
    Cmd.bind_ok (getRes_ok S (hr.le.trans h)), hr, hm, hp, Cmd.bind_ok (Cmd.lift_ok p s), Cmd.bind_ok (setX_at S h _ s)]
  exact setRes_ok S (by rw [putX_cur, hr]; exact h) _

theorem doPost_ok (β : BlockSolve B X X) {l : Nat} (h : l ≤ S.coarsest) (s : State X) (hc : s.cur = curAt S.coarsest l)
    (p : (Nat → X) × (Nat → X)) (hp : postsmooth β (S.mat l) (s.bv (bAt l)) (s.xv (xAt l)) (s.residual l) = .ok p) :
    doPost β S (xAt l) (bAt l) s = .ok () ((s.putX p.1 (xAt l)).putRes p.2) := by
  have hr : s.cur.residual = l := by rw [hc]; rfl
  have hm : s.cur.matrix = l := by rw [hc]; rfl
  unfold doPost
  rw [Cmd.bind_ok (Cmd.get_apply s), Cmd.bind_ok (getX_at S h s), Cmd.bind_ok (getB_at S h s),
    Cmd.bind_ok (getRes_ok S (hr.le.trans h)), hr, hm, hp, Cmd.bind_ok (Cmd.lift_ok p s), Cmd.bind_ok (setX_at S h _ s)]
  exact setRes_ok S (by rw [putX_cur, hr]; exact h) _

/-- The state after `moveToCoarseLevel`. -/
def State.down (S : Setup B X K) (l : Nat) (s : State X) : State X :=
  { s with cur := curAt S.coarsest (l + 1), rhs := fun j => if j = l + 1 then S.restr l (s.residual l) else s.rhs j,
           lhs := fun j => if j = l + 1 then 0 else s.lhs j, residual := fun j => if j = l + 1 then 0 else s.residual j }

theorem moveToCoarse_ok {l : Nat} (h : l < S.coarsest) (s : State X) (hc : s.cur = curAt S.coarsest l) :
    moveToCoarse S s = .ok () (s.down S l) := by
  have hr : s.cur.residual = l := by rw [hc]; rfl
  have hrhs : s.cur.rhs = l := by rw [hc]; rfl
  have ha : s.cur.aggregates = l := by rw [hc]; simp [curAt, h]
  unfold moveToCoarse
  rw [Cmd.bind_ok (getRes_ok S (by omega)), Cmd.bind_ok (Cmd.get_apply s), Cmd.bind_ok (Cmd.modify_apply _ _),
    Cmd.bind_ok (setB_rhs S (by omega) _ _), Cmd.bind_ok (Cmd.modify_apply _ _), Cmd.bind_ok (Cmd.modify_apply _ _),
    Cmd.bind_ok (Cmd.get_apply _)]
  have e : (if (l + 1 : Nat) ≠ S.coarsest then l + 1 else l) = (curAt S.coarsest (l + 1)).aggregates := by
    simp only [curAt]; split_ifs <;> omega
  simp only [State.putB, hr, hrhs, ha, hc, curAt]
  by_cases h1 : l + 1 = S.coarsest
  · simp only [h1, ne_eq, not_true, if_false, lt_irrefl]
    rw [Cmd.bind_ok (setX_lhs S (le_refl _) _ _), setRes_ok S (le_refl _)]
    simp only [State.putX, State.putRes, State.down, curAt, ← h1, lt_irrefl, if_false, h, if_true, Nat.add_sub_cancel]
    congr 2 <;> simp
  · rw [if_pos (by exact h1)]
    have h2 : l + 1 < S.coarsest := by omega
    simp only [h, if_true]
    rw [Cmd.bind_ok (setX_lhs S h2.le _ _), setRes_ok S h2.le]
    simp only [State.putX, State.putRes, State.down, curAt, h2, if_true]

/-- The state after `moveToFineLevel`. -/
def State.up (S : Setup B X K) (l : Nat) (s : State X) : State X :=
  let t := s.putX (S.damp • s.lhs (l + 1)) (.lhs (l + 1))
  { t.putX (t.xv (xAt l) + S.prol l (S.damp • s.lhs (l + 1))) (xAt l) with cur := curAt S.coarsest l }

theorem moveToFine_ok {l : Nat} (h : l < S.coarsest) (s : State X) (hc : s.cur = curAt S.coarsest (l + 1)) :
    moveToFine S (xAt l) s = .ok () (s.up S l) := by
  unfold moveToFine
  rw [Cmd.bind_ok (Cmd.modify_apply _ _), Cmd.bind_ok (Cmd.modify_apply _ _), Cmd.bind_ok (Cmd.get_apply _),
    Cmd.bind_ok (Cmd.modify_apply _ _)]
  have hm : s.cur.matrix = l + 1 := by rw [hc]; rfl
  have key : ∀ c : Cursor, c.lhs = l + 1 → c.aggregates = l → c.matrix = l → c.residual = l → c.rhs = l + 1 →
      (do
        let c' ← getX S (.lhs c.lhs)
        setX S (S.damp • c') (.lhs c.lhs)
        let x ← getX S (xAt l)
        setX S (x + S.prol c.aggregates (S.damp • c')) (xAt l)
        Cmd.modify fun s => { s with cur := { s.cur with rhs := s.cur.rhs - 1 } } : MG X Unit)
        { s with cur := { c with lhs := c.lhs - 1 } } = .ok () (s.up S l) := by
    intro c h1 h2 h3 h4 h5
    rw [h1, h2]
    rw [Cmd.bind_ok (getX_lhs S (by omega) _), Cmd.bind_ok (setX_lhs S (by omega) _ _), Cmd.bind_ok (getX_at S h.le _),
      Cmd.bind_ok (setX_at S h.le _ _), Cmd.modify_apply]
    have e : ({ c with lhs := l + 1 - 1, rhs := c.rhs - 1 } : Cursor) = curAt S.coarsest l := by
      cases c; simp_all [curAt]
    unfold State.up
    by_cases h0 : l = 0
    · subst h0
      simp only [xAt, if_true, State.putX, State.xv, Out.ok.injEq, true_and]
      simp only [State.mk.injEq, and_self, and_true]
      rw [h2] at e
      exact e
    · simp only [xAt, if_neg h0, State.putX, State.xv, Out.ok.injEq, true_and]
      simp only [State.mk.injEq, and_self, and_true]
      rw [h2] at e
      exact e
  by_cases h1 : l + 1 = S.coarsest
  · rw [if_neg (show ¬ s.cur.matrix ≠ S.coarsest by rw [hm, h1]; simp)]
    exact key { s.cur with matrix := s.cur.matrix - 1, residual := s.cur.residual - 1 } (by rw [hc]; rfl) (by rw [hc]; simp [curAt, ← h1])
      (by rw [hc]; rfl) (by rw [hc]; rfl) (by rw [hc]; rfl)
  · rw [if_pos (show s.cur.matrix ≠ S.coarsest by rw [hm]; exact h1)]
    exact key { s.cur with aggregates := s.cur.aggregates - 1, matrix := s.cur.matrix - 1, residual := s.cur.residual - 1 } (by rw [hc]; rfl)
      (by rw [hc]; simp [curAt, show l + 1 < S.coarsest by omega]) (by rw [hc]; rfl) (by rw [hc]; rfl) (by rw [hc]; rfl)

end basic
section cycle
variable [CommRing K] [Module K X]

/-- What `mgc` on level `l` leaves alone. -/
structure Keeps (S : Setup B X K) (l : Nat) (s s' : State X) : Prop where
  cur : s'.cur = s.cur
  lhs : ∀ k, k < l → s'.lhs k = s.lhs k
  residual : ∀ k, k < l → s'.residual k = s.residual k
  rhs : ∀ k, k < l → s'.rhs k = s.rhs k
  user : 0 < l → s'.v = s.v ∧ s'.d = s.d
  conv : S.Converges → s'.conv = s.conv

theorem Keeps.trans {S : Setup B X K} {l : Nat} {s t u : State X} (h : Keeps S l s t) (h' : Keeps S l t u) : Keeps S l s u :=
  ⟨h'.cur.trans h.cur, fun k hk => (h'.lhs k hk).trans (h.lhs k hk), fun k hk => (h'.residual k hk).trans (h.residual k hk),
    fun k hk => (h'.rhs k hk).trans (h.rhs k hk), fun hl => ⟨(h'.user hl).1.trans (h.user hl).1, (h'.user hl).2.trans (h.user hl).2⟩,
    fun c => (h'.conv c).trans (h.conv c)⟩

theorem _root_.Istl.Supp.cut {n : Nat} {x : Nat → X} (h : Supp n x) : cut n x = x := by
  funext i
  by_cases hi : i < n
  · simp [Istl.cut, hi]
  · simp [Istl.cut, hi, h i (by omega)]

theorem _root_.Istl.Supp.add {n : Nat} {x y : Nat → X} (h : Supp n x) (h' : Supp n y) : Supp n (x + y) := fun i hi => by simp [h i hi, h' i hi]
theorem _root_.Istl.Supp.sub {n : Nat} {x y : Nat → X} (h : Supp n x) (h' : Supp n y) : Supp n (x - y) := fun i hi => by simp [h i hi, h' i hi]

theorem mat_supp (β : BlockSolve B X X) (S : Setup B X K) (l : Nat) (x : Nat → X) : Supp (S.mat l).n ((vCycle β S).mat l x) :=
  fun i hi => by simp [vCycle, show ¬ i < (S.mat l).n by omega]

theorem mat_zero (β : BlockSolve B X X) (S : Setup B X K) (l : Nat) : (vCycle β S).mat l 0 = 0 := by
  funext i; simp [vCycle, SpMat.apply, SpMat.partSum]

theorem pre_step (β : BlockSolve B X X) (hβ : ∀ a (c : K) x, β.act a (c • x) = c • β.act a x) (S : Setup B X K) (hG : S.Good β) {l : Nat}
    (hl : l < S.coarsest) (b x d : Nat → X) (hb : Supp (S.mat l).n b) (hx : Supp (S.mat l).n x) (hd : Supp (S.mat l).n d) :
    ∃ p, presmooth β (S.mat l) b x d = .ok p ∧ p.1 = (vCycle β S).pre l 0 b ∧ p.2 = b - (vCycle β S).mat l p.1 ∧ Supp (S.mat l).n p.1 := by
  have hS := hG.sorted l hl
  have hD := hG.diag l hl
  have hI := hG.inv l hl
  obtain ⟨p, hp⟩ := presmooth_ok β (S.mat l) hS hD hI b x d
  obtain ⟨F, G, J, hF, -, -, hz, -⟩ := sweep_ops β hβ (S.mat l) hS hD hI (1 : K)
  have hy := hF b 0
  have k := presmooth_keep β (S.mat l) hS hD b x d p hp
  have e := presmooth_eq_bsorf (K := K) β (S.mat l) hS hD hI b x d _ p hp hy
  have s1 : Supp (S.mat l).n p.1 := fun i hi => by rw [(k i hi).1, hx i hi]
  refine ⟨p, hp, ?_, ?_, s1⟩
  · change p.1 = result (bsorf β.act (solveLoc β) (1 : K) (S.mat l) b 0)
    rw [hy]
    funext i
    by_cases hi : i < (S.mat l).n
    · exact e i hi
    · change p.1 i = (0 + F _ : Nat → X) i
      rw [s1 i (by omega), Pi.add_apply, (hz _ i (by omega)).1]
      simp
  · funext i
    by_cases hi : i < (S.mat l).n
    · rw [presmooth_defect β (S.mat l) hS hD (hG.square l hl) (hG.symm l hl) b x d p hp i hi]
      simp [vCycle, hi]
    · rw [(k i (by omega)).2, hd i (by omega), Pi.sub_apply, hb i (by omega), mat_supp β S l _ i (by omega), sub_zero]

theorem post_step (β : BlockSolve B X X) (hβ : ∀ a (c : K) x, β.act a (c • x) = c • β.act a x) (S : Setup B X K) (hG : S.Good β) {l : Nat}
    (hl : l < S.coarsest) (b x d : Nat → X) (hb : Supp (S.mat l).n b) (hx : Supp (S.mat l).n x) :
    ∃ p, postsmooth β (S.mat l) b x d = .ok p ∧ p.1 = x + (vCycle β S).post l 0 (b - (vCycle β S).mat l x) ∧ Supp (S.mat l).n p.1 ∧
      (Supp (S.mat l).n d → Supp (S.mat l).n p.2) := by
  have hS := hG.sorted l hl
  have hD := hG.diag l hl
  have hI := hG.inv l hl
  obtain ⟨F, G, J, -, hGo, -, hz, -⟩ := sweep_ops β hβ (S.mat l) hS hD hI (1 : K)
  have hy := hGo b x
  obtain ⟨d', hp, hk, -⟩ := postsmooth_eq_bsorb (K := K) β (S.mat l) hS hD hI b x d _ hy
  have em : matOp β.act hβ (S.mat l) x = (vCycle β S).mat l x := rfl
  have ep : (vCycle β S).post l 0 (b - (vCycle β S).mat l x) = G (b - (vCycle β S).mat l x) := by
    change result (bsorb β.act (solveLoc β) (1 : K) (S.mat l) (b - (vCycle β S).mat l x) 0) = _
    rw [hGo, map_zero, sub_zero, (hb.sub (mat_supp β S l x)).cut]
    exact zero_add _
  refine ⟨_, hp, ?_, ?_, fun hd i hi => (hk i hi).trans (hd i hi)⟩
  · rw [ep, ← em, hb.cut]
  · exact hx.add fun i hi => (hz _ i hi).2.1

/-- `mgc` computes the V-cycle. -/
theorem mgc_spec (β : BlockSolve B X X) (hβ : ∀ a (c : K) x, β.act a (c • x) = c • β.act a x) (S : Setup B X K) (hG : S.Good β)
    (hg : S.gamma = 1 ∨ 1 ≤ S.gamma ∧ S.Direct) :
    ∀ (d l : Nat), l + d = S.coarsest → ∀ s : State X, s.cur = curAt S.coarsest l →
      (0 < d → Supp (S.mat l).n (s.xv (xAt l)) ∧ Supp (S.mat l).n (s.bv (bAt l)) ∧ Supp (S.mat l).n (s.residual l)) →
      (d = 0 → s.xv (xAt l) = 0 ∨ S.Direct) →
      (∃ s', mgc β S (d + 1) (xAt l) (bAt l) s = .ok () s' ∧ Keeps S l s s' ∧ s'.xv (xAt l) = Amg.mg (vCycle β S) d l (s.bv (bAt l)) ∧
        (0 < d → Supp (S.mat l).n (s'.xv (xAt l)) ∧ Supp (S.mat l).n (s'.residual l)) ∧ (0 < d ∨ S.Direct → s'.bv (bAt l) = s.bv (bAt l))) ∨
      (l = 0 ∧ 0 < d ∧ ∃ s', mgc β S (d + 1) (xAt l) (bAt l) s = .throw .mathError s' ∧ s'.conv = false ∧ (S.Converges → s.conv = false)) := by
  intro d
  induction d with
  | zero =>
    intro l hl s hc _ hx
    left
    have hm : s.cur.matrix = S.coarsest := by rw [hc]; simp [curAt]; omega
    have hsol : (S.solve (s.xv (xAt l)) (s.bv (bAt l))).1 = (S.solve 0 (s.bv (bAt l))).1 := by
      rcases hx rfl with h | h
      · rw [h]
      · rw [h]
    have e : mgc β S (0 + 1) (xAt l) (bAt l) s = coarseSolve S (xAt l) (bAt l) s := by
      change ((Cmd.get : MG X (State X)) >>= _) s = _
      rw [Cmd.bind_ok (Cmd.get_apply s), if_pos hm]
    rw [e]
    unfold coarseSolve
    rw [Cmd.bind_ok (getX_at S (by omega) s), Cmd.bind_ok (getB_at S (by omega) s)]
    rw [Cmd.bind_ok (setX_at S (by omega) _ s), Cmd.bind_ok (setB_at S (by omega) _ _)]
    set r := S.solve (s.xv (xAt l)) (s.bv (bAt l)) with hr
    have fin : ∀ c : Bool, (S.Converges → c = s.conv) → ∀ t, t = ({ (s.putX r.1 (xAt l)).putB r.2.1 (bAt l) with conv := c } : State X) →
        Keeps S l s t ∧ t.xv (xAt l) = Amg.mg (vCycle β S) 0 l (s.bv (bAt l)) ∧ (S.Direct → t.bv (bAt l) = s.bv (bAt l)) := by
      intro c hcv t ht
      subst ht
      refine ⟨⟨?_, ?_, ?_, ?_, ?_, hcv⟩, ?_, ?_⟩
      · by_cases h0 : l = 0 <;> simp [xAt, bAt, h0, State.putX, State.putB]
      · intro k hk
        by_cases h0 : l = 0
        · omega
        · simp [xAt, bAt, h0, State.putX, State.putB, show k ≠ l by omega]
      · intro k hk
        by_cases h0 : l = 0 <;> simp [xAt, bAt, h0, State.putX, State.putB]
      · intro k hk
        by_cases h0 : l = 0
        · omega
        · simp [xAt, bAt, h0, State.putX, State.putB, show k ≠ l by omega]
      · intro h0
        have : l ≠ 0 := by omega
        simp [xAt, bAt, this, State.putX, State.putB]
      · have : Amg.mg (vCycle β S) 0 l (s.bv (bAt l)) = r.1 := hsol.symm
        rw [this]
        by_cases h0 : l = 0 <;> simp [xAt, bAt, h0, State.putX, State.putB, State.xv]
      · intro hd
        have : r.2.1 = s.bv (bAt l) := by rw [hr, hd]
        rw [this]
        by_cases h0 : l = 0 <;> simp [xAt, bAt, h0, State.putX, State.putB, State.bv]
    by_cases hcv : r.2.2 = false
    · rw [if_pos hcv]
      obtain ⟨f1, f2, f3⟩ := fin false (fun hC => by rw [hr, hC] at hcv; cases hcv) _ rfl
      exact ⟨_, rfl, f1, f2, fun h => by omega, fun h => f3 (h.resolve_left (lt_irrefl _))⟩
    · rw [if_neg hcv]
      obtain ⟨f1, f2, f3⟩ := fin s.conv (fun _ => rfl) ((s.putX r.1 (xAt l)).putB r.2.1 (bAt l)) (by
        by_cases h0 : l = 0 <;> simp [xAt, bAt, h0, State.putX, State.putB])
      exact ⟨_, rfl, f1, f2, fun h => by omega, fun h => f3 (h.resolve_left (lt_irrefl _))⟩
  | succ d ih =>
    intro l hl s hc hsup _
    obtain ⟨sx, sb, sr⟩ := hsup (by omega)
    have hlt : l < S.coarsest := by omega
    have hm : s.cur.matrix ≠ S.coarsest := by rw [hc]; simp [curAt]; omega
    set b := s.bv (bAt l) with hb
    have e : mgc β S (d + 1 + 1) (xAt l) (bAt l) s = (do
        doPre β S (xAt l) (bAt l)
        moveToCoarse S
        gammaLoop (mgc β S (d + 1)) S.gamma
        moveToFine S (xAt l)
        checkCoarse
        doPost β S (xAt l) (bAt l) : MG X Unit) s := by
      change ((Cmd.get : MG X (State X)) >>= _) s = _
      rw [Cmd.bind_ok (Cmd.get_apply s), if_neg hm]
    rw [e]
    obtain ⟨p, hp, p1, p2, ps⟩ := pre_step β hβ S hG hlt b (s.xv (xAt l)) (s.residual l) sb sx sr
    have hr : s.cur.residual = l := by rw [hc]; rfl
    rw [Cmd.bind_ok (doPre_ok S β hlt.le s hc p hp)]
    set s1 := (s.putX p.1 (xAt l)).putRes p.2 with hs1
    have c1 : s1.cur = curAt S.coarsest l := by rw [hs1, putRes_cur, putX_cur, hc]
    rw [Cmd.bind_ok (moveToCoarse_ok S hlt s1 c1)]
    set s2 := s1.down S l with hs2
    have res1 : s1.residual l = p.2 := by simp [hs1, State.putRes, hr]
    set r := S.restr l (b - (vCycle β S).mat l p.1) with hrr
    have K2 : s2.cur = curAt S.coarsest (l + 1) := rfl
    have rhs2 : s2.rhs (l + 1) = r := by simp [hs2, State.down, res1, p2, hrr]
    have lhs2 : s2.lhs (l + 1) = 0 := by simp [hs2, State.down]
    have res2 : s2.residual (l + 1) = 0 := by simp [hs2, State.down]
    have xr1 : xAt (l + 1) = .lhs (l + 1) := by simp [xAt]
    have br1 : bAt (l + 1) = .rhs (l + 1) := by simp [bAt]
    -- the loop over gamma
    have loop : ∀ (k : Nat) (t : State X), k ≤ S.gamma → t.cur = curAt S.coarsest (l + 1) → t.rhs (l + 1) = r →
        (0 < k → (t.lhs (l + 1) = 0 ∨ S.Direct) ∧ (0 < d → Supp (S.mat (l + 1)).n (t.lhs (l + 1)) ∧ Supp (S.mat (l + 1)).n (t.residual (l + 1)))) →
        (1 < k → S.Direct) →
        ∃ t', gammaLoop (mgc β S (d + 1)) k t = .ok () t' ∧ Keeps S (l + 1) t t' ∧
          (0 < k → t'.lhs (l + 1) = Amg.mg (vCycle β S) d (l + 1) r) ∧ (k = 0 → t' = t) := by
      intro k
      induction k with
      | zero => intro t _ _ _ _ _; exact ⟨t, rfl, ⟨rfl, fun _ _ => rfl, fun _ _ => rfl, fun _ _ => rfl, fun _ => ⟨rfl, rfl⟩, fun _ => rfl⟩,
          fun h => by omega, fun _ => rfl⟩
      | succ k ihk =>
        intro t hk tc tr tx tD
        have tl : t.cur.lhs = l + 1 := by rw [tc]; rfl
        have trh : t.cur.rhs = l + 1 := by rw [tc]; rfl
        have bvt : t.bv (bAt (l + 1)) = r := by rw [br1]; exact tr
        rcases ih (l + 1) (by omega) t tc (fun hd => by
            rw [xr1]
            exact ⟨((tx (by omega)).2 hd).1, by rw [bvt]; exact hG.restr l hlt _, ((tx (by omega)).2 hd).2⟩)
          (fun hd => by rw [xr1]; exact (tx (by omega)).1) with ⟨t', q, kp, xq, sq, bq⟩ | ⟨h0, _⟩
        · have step : gammaLoop (mgc β S (d + 1)) (k + 1) t = gammaLoop (mgc β S (d + 1)) k t' := by
            change ((Cmd.get : MG X (State X)) >>= _) t = _
            rw [Cmd.bind_ok (Cmd.get_apply t), tl, trh, ← xr1, ← br1, Cmd.bind_ok q]
          rw [bvt] at xq bq
          rw [xr1] at xq sq
          rw [br1] at bq
          have tc' : t'.cur = curAt S.coarsest (l + 1) := kp.cur.trans tc
          obtain ⟨t'', g1, g2, g3, g4⟩ : ∃ t'', gammaLoop (mgc β S (d + 1)) k t' = .ok () t'' ∧ Keeps S (l + 1) t' t'' ∧
              (0 < k → t''.lhs (l + 1) = Amg.mg (vCycle β S) d (l + 1) r) ∧ (k = 0 → t'' = t') := by
            by_cases hk0 : k = 0
            · subst hk0
              exact ⟨t', rfl, ⟨rfl, fun _ _ => rfl, fun _ _ => rfl, fun _ _ => rfl, fun _ => ⟨rfl, rfl⟩, fun _ => rfl⟩, fun h => by omega, fun _ => rfl⟩
            · have D := tD (by omega)
              exact ihk t' (by omega) tc' (bq (.inr D)) (fun _ => ⟨.inr D, fun hd => ⟨(sq hd).1, (sq hd).2⟩⟩) (fun _ => D)
          refine ⟨t'', step.trans g1, kp.trans g2, fun _ => ?_, fun h => by omega⟩
          by_cases hk0 : k = 0
          · rw [g4 hk0]; exact xq
          · exact g3 (by omega)
        · omega
    have hg1 : 1 ≤ S.gamma := by rcases hg with h | h <;> omega
    obtain ⟨s3, q3, k3, x3, -⟩ := loop S.gamma s2 (le_refl _) K2 rhs2
      (fun _ => ⟨.inl lhs2, fun _ => ⟨by rw [lhs2]; exact fun _ _ => rfl, by rw [res2]; exact fun _ _ => rfl⟩⟩)
      (fun h => by rcases hg with h' | h'; · omega
                   · exact h'.2)
    have x3 := x3 (by omega)
    rw [Cmd.bind_ok q3, Cmd.bind_ok (moveToFine_ok S hlt s3 (k3.cur.trans K2))]
    set s4 := s3.up S l with hs4
    have xv3 : s3.xv (xAt l) = p.1 := by
      by_cases h0 : l = 0
      · simp only [xAt, h0, if_true, State.xv, (k3.user (by omega)).1]
        simp [hs2, State.down, hs1, State.putX, State.putRes, xAt, h0]
      · simp only [xAt, if_neg h0, State.xv, k3.lhs l (by omega)]
        simp [hs2, State.down, hs1, State.putX, State.putRes, xAt, h0]
    have bv3 : s3.bv (bAt l) = b := by
      by_cases h0 : l = 0
      · simp only [bAt, h0, if_true, State.bv, (k3.user (by omega)).2]
        simp [hs2, State.down, hs1, State.putRes, hb, bAt, h0, State.bv]
      · simp only [bAt, if_neg h0, State.bv, k3.rhs l (by omega)]
        simp [hs2, State.down, hs1, State.putRes, hb, bAt, h0, State.bv]
    set x4 := p.1 + S.prol l (S.damp • Amg.mg (vCycle β S) d (l + 1) r) with hx4
    have xv4 : s4.xv (xAt l) = x4 := by
      have e : s4.xv (xAt l) = s3.xv (xAt l) + S.prol l (S.damp • s3.lhs (l + 1)) := by
        by_cases h0 : l = 0
        · simp [hs4, State.up, xAt, h0, State.putX, State.xv]
        · simp [hs4, State.up, xAt, h0, State.putX, State.xv]
      rw [e, xv3, x3]
    have bv4 : s4.bv (bAt l) = b := by
      rw [← bv3]
      by_cases h0 : l = 0
      · simp [hs4, State.up, xAt, bAt, h0, State.putX, State.bv]
      · simp [hs4, State.up, xAt, bAt, h0, State.putX, State.bv]
    have c4 : s4.cur = curAt S.coarsest l := rfl
    have cv4 : s4.conv = s3.conv := by
      by_cases h0 : l = 0 <;> simp [hs4, State.up, xAt, h0, State.putX]
    have cv3 : S.Converges → s3.conv = s.conv := fun h => by
      rw [k3.conv h]; simp [hs2, State.down, hs1]
    have sx4 : Supp (S.mat l).n x4 := ps.add (hG.prol l hlt _)
    by_cases hchk : l = 0 ∧ s4.conv = false
    · right
      refine ⟨hchk.1, by omega, s4, ?_, hchk.2, fun h => ?_⟩
      · apply Cmd.bind_throw
        change ((Cmd.get : MG X (State X)) >>= _) s4 = _
        rw [Cmd.bind_ok (Cmd.get_apply s4), if_pos (by rw [c4]; exact hchk)]
        rfl
      · rw [← cv3 h, ← cv4]; exact hchk.2
    · left
      have chk : (checkCoarse : MG X Unit) s4 = .ok () s4 := by
        change ((Cmd.get : MG X (State X)) >>= _) s4 = _
        rw [Cmd.bind_ok (Cmd.get_apply s4), if_neg (by rw [c4]; exact hchk)]
        rfl
      rw [Cmd.bind_ok chk]
      obtain ⟨q, hq, q1, q2, q3'⟩ := post_step β hβ S hG hlt b x4 (s4.residual l) sb sx4
      rw [doPost_ok S β hlt.le s4 c4 q (by rw [bv4, xv4]; exact hq)]
      refine ⟨_, rfl, ⟨?_, ?_, ?_, ?_, ?_, ?_⟩, ?_, ?_, ?_⟩
      · rw [putRes_cur, putX_cur, c4, hc]
      · intro k hk
        have h0 : l ≠ 0 := by omega
        have h1 : k ≠ l := by omega
        have h2 : k ≠ l + 1 := by omega
        have := k3.lhs k (by omega)
        simp only [State.putRes, xAt, if_neg h0, State.putX, if_neg h1, hs4, State.up, if_neg h2]
        rw [this]
        simp [hs2, State.down, hs1, State.putRes, xAt, h0, State.putX, h1, h2]
      · intro k hk
        have h1 : k ≠ l := by omega
        have h2 : k ≠ l + 1 := by omega
        have e4 : s4.residual k = s3.residual k := by
          by_cases h0 : l = 0 <;> simp [hs4, State.up, xAt, h0, State.putX]
        have := k3.residual k (by omega)
        simp only [State.putRes, putX_cur, putX_residual, c4]
        rw [if_neg (show k ≠ (curAt S.coarsest l).residual from h1), e4, this]
        simp [hs2, State.down, hs1, State.putRes, h2, hr, h1]
      · intro k hk
        have h2 : k ≠ l + 1 := by omega
        have e4 : s4.rhs k = s3.rhs k := by
          by_cases h0 : l = 0 <;> simp [hs4, State.up, xAt, h0, State.putX]
        have := k3.rhs k (by omega)
        simp only [State.putRes, putX_rhs]
        rw [e4, this]
        simp [hs2, State.down, hs1, State.putRes, h2]
      · intro hp
        have h0 : l ≠ 0 := by omega
        have := k3.user (by omega)
        simp only [State.putRes, xAt, if_neg h0, State.putX, hs4, State.up]
        rw [this.1, this.2]
        simp [hs2, State.down, hs1, State.putRes, xAt, h0, State.putX]
      · intro h
        rw [putRes_conv, putX_conv, cv4, cv3 h]
      · rw [putRes_xv, putX_xv, q1]
        have e0 : (b - (vCycle β S).mat l 0) = b := by rw [mat_zero, sub_zero]
        have hc' : Amg.mg (vCycle β S) d (l + 1) r = (if d = 0 then (if (vCycle β S).gamma = 0 then 0 else ((vCycle β S).solve 0 r).1)
            else Amg.relax ((vCycle β S).mat (l + 1)) (Amg.mg (vCycle β S) d (l + 1)) r (vCycle β S).gamma 0) := by
          by_cases hd : d = 0
          · subst hd; rfl
          · rw [if_neg hd]
            change _ = Amg.relax _ _ r 1 0
            rw [Amg.relax, Amg.relax, mat_zero, sub_zero, zero_add]
        have ep : Amg.relax ((vCycle β S).mat l) ((vCycle β S).pre l 0) b (vCycle β S).preSteps 0 = p.1 := by
          change Amg.relax _ _ b 1 0 = _
          rw [Amg.relax, Amg.relax, e0, zero_add, p1]
        rw [Amg.mg]
        rw [ep]
        change _ = Amg.relax _ _ b 1 _
        rw [Amg.relax, Amg.relax]
        have ex : p.1 + (vCycle β S).prol l ((vCycle β S).damp • (if d = 0 then (if (vCycle β S).gamma = 0 then 0 else
            ((vCycle β S).solve 0 r).1) else Amg.relax ((vCycle β S).mat (l + 1)) (Amg.mg (vCycle β S) d (l + 1)) r (vCycle β S).gamma 0)) = x4 := by
          rw [← hc']; rfl
        have er : (vCycle β S).restr l (b - (vCycle β S).mat l p.1) = r := rfl
        rw [er, ex]
      · intro _
        refine ⟨by rw [putRes_xv, putX_xv]; exact q2, ?_⟩
        have e4 : s4.residual l = s3.residual l := by
          by_cases h0 : l = 0 <;> simp [hs4, State.up, xAt, h0, State.putX]
        have e3 : s3.residual l = p.2 := by
          rw [k3.residual l (by omega), ← res1]
          simp [hs2, State.down]
        have : (((s4.putX q.1 (xAt l)).putRes q.2).residual l) = q.2 := by
          simp only [State.putRes, putX_cur, c4]
          exact if_pos rfl
        rw [this]
        refine q3' ?_
        rw [e4, e3, p2]
        exact sb.sub (mat_supp β S l _)
      · intro _
        rw [putRes_bv, putX_bv, bv4]

end cycle
end FastAmg
end Istl
