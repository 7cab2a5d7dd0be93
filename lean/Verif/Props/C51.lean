import Verif.Lemmas.AmgSpd
import Mathlib.Tactic.FieldSimp
import Mathlib.Tactic.Positivity
import Mathlib.Algebra.Order.Ring.Rat

/-!
# C51 The multigrid preconditioner of a symmetric problem is symmetric and positive definite
-/

namespace Istl
namespace Amg
variable {K V : Type} [CommRing K] [AddCommGroup V] [Module K V]
variable {B : V → V → K} {S : Setup K V} {A S1 S2 R P : Nat → Module.End K V} {C : Module.End K V}

/-- **C51.** Symmetric matrices on all levels, post-smoother the transpose of the pre-smoother, as many post- as pre-smoothing steps,
restriction the transpose of prolongation, symmetric coarse solver: then `apply` is symmetric, for every number of levels, of smoothing
steps, every `gamma` and every damping factor: if `apply` returns `x` for `b` and `y` for `c`, then `⟨x, c⟩ = ⟨b, y⟩`, whatever happened on
the object before or between the two calls. -/
theorem C51_symmetric (hB : ScalarProd B) (H : SymHierarchy B S A S1 S2 R P C) (hC : Adjoint B C C) (s t s' t' : State V)
    (hs : s.Sized S) (ht : t.Sized S) (v w b c x y : V) (h1 : amgApply S v b s = .ok x s') (h2 : amgApply S w c t = .ok y t') :
    B x c = B b y := by
  have hA : ∀ l x y, S.mat l (x + y) = S.mat l x + S.mat l y := fun l x y => by rw [H.mat, map_add]
  obtain ⟨M, eM, aM⟩ := mg_adj hB H hC S.coarsest 0
  have ex : x = M b := by
    rcases C46_apply_is_the_cycle S hA s hs v b with ⟨_, e, _⟩ | ⟨_, e, _⟩
    · rw [h1] at e; rw [eM] at e; exact (Out.ok.inj e).1
    · rw [h1] at e; simp at e
  have ey : y = M c := by
    rcases C46_apply_is_the_cycle S hA t ht w c with ⟨_, e, _⟩ | ⟨_, e, _⟩
    · rw [h2] at e; rw [eM] at e; exact (Out.ok.inj e).1
    · rw [h2] at e; simp at e
  rw [ex, ey]
  exact aM b c

variable [LinearOrder K] [IsStrictOrderedRing K] {W : Nat → Submodule K V}

/-- **C51.** If in addition the matrices are positive definite, the coarse ones Galerkin products, the coarse solver exact, each
pre-smoothing step reduces the energy of the error, at least one such step is made and `0 ≤ damping ≤ 1`, then `apply` is positive
definite: `⟨apply(b), b⟩ > 0` for `b ≠ 0`. -/
theorem C51_positive (hB : ScalarProd B) (H : SpdHierarchy B S W A S1 S2 R P C) (hk : 0 < S.preSteps) (s s' : State V)
    (hs : s.Sized S) (v b x : V) (hb : b ∈ W 0) (h0 : b ≠ 0) (h1 : amgApply S v b s = .ok x s') : 0 < B x b := by
  have hA : ∀ l x y, S.mat l (x + y) = S.mat l x + S.mat l y := fun l x y => by rw [H.mat, map_add]
  obtain ⟨M, eM, _, _, st⟩ := mg_spd hB H hk S.coarsest 0 (by omega)
  have ex : x = M b := by
    rcases C46_apply_is_the_cycle S hA s hs v b with ⟨_, e, _⟩ | ⟨_, e, _⟩
    · rw [h1] at e; rw [eM] at e; exact (Out.ok.inj e).1
    · rw [h1] at e; simp at e
  obtain ⟨z, hz, rfl⟩ := H.regular 0 b hb
  have hz0 : z ≠ 0 := fun h => h0 (by rw [h, map_zero])
  have := st z hz hz0
  rw [map_sub, hB.sub, H.A_symm 0 (M (A 0 z)) z, ← ex] at this
  linarith

/-- **C51.** Under the same hypotheses one `apply` used as a step of an iteration, `u ← u + apply(A x - A u)`, strictly reduces the energy
`⟨A e, e⟩` of every non-zero error `e = x - u`. -/
theorem C51_step_reduces_energy (hB : ScalarProd B) (H : SpdHierarchy B S W A S1 S2 R P C) (hk : 0 < S.preSteps) (s s' : State V)
    (hs : s.Sized S) (v x u p : V) (hx : x ∈ W 0) (hu : u ∈ W 0) (h0 : x ≠ u)
    (h1 : amgApply S v (A 0 x - A 0 u) s = .ok p s') :
    B (A 0 (x - (u + p))) (x - (u + p)) < B (A 0 (x - u)) (x - u) := by
  have hA : ∀ l x y, S.mat l (x + y) = S.mat l x + S.mat l y := fun l x y => by rw [H.mat, map_add]
  obtain ⟨M, eM, _, bt, st⟩ := mg_spd hB H hk S.coarsest 0 (by omega)
  have ex : p = M (A 0 (x - u)) := by
    rw [map_sub]
    rcases C46_apply_is_the_cycle S hA s hs v _ with ⟨_, e, _⟩ | ⟨_, e, _⟩
    · rw [h1] at e; rw [eM] at e; exact (Out.ok.inj e).1
    · rw [h1] at e; simp at e
  have he : x - (u + p) = (1 - M * A 0) (x - u) := by
    rw [ex]
    simp only [LinearMap.sub_apply, Module.End.one_apply, Module.End.mul_apply]
    abel
  have hE : (fun z => z - M (A 0 z)) = ((1 - M * A 0 : Module.End K V) : V → V) := funext fun z => by simp
  rw [hE] at bt
  have n := bt.norm (energy_form hB (H.A_symm 0)) (x - u) ((W 0).sub_mem hx hu)
  have st' := st (x - u) ((W 0).sub_mem hx hu) (sub_ne_zero.2 h0)
  rw [congrFun hE (x - u)] at st'
  rw [he]
  exact lt_of_le_of_lt n st'

end Amg

/-! ### The hypotheses can be met: two unknowns, Gauß-Seidel smoothing, one aggregate -/
namespace Amg
namespace SpdDemo

/-- The matrix `(a b; c d)`. -/
def mk2 (a b c d : ℚ) : Module.End ℚ (ℚ × ℚ) where
  toFun := fun x => (a * x.1 + b * x.2, c * x.1 + d * x.2)
  map_add' := fun x y => by ext <;> simp <;> ring
  map_smul' := fun k x => by ext <;> simp <;> ring

/-- The Euclidean scalar product. -/
def dot (x y : ℚ × ℚ) : ℚ := x.1 * y.1 + x.2 * y.2

/-- `mat`: the one-dimensional Laplacian and its Galerkin product. -/
def A : Nat → Module.End ℚ (ℚ × ℚ)
  | 0 => mk2 2 (-1) (-1) 2
  | 1 => mk2 2 0 0 0
  | _ => 0
/-- forward Gauß-Seidel -/
def S1 : Nat → Module.End ℚ (ℚ × ℚ)
  | 0 => mk2 (1/2) 0 (1/4) (1/2)
  | 1 => mk2 (1/2) 0 0 0
  | _ => 0
/-- backward Gauß-Seidel -/
def S2 : Nat → Module.End ℚ (ℚ × ℚ)
  | 0 => mk2 (1/2) (1/4) 0 (1/2)
  | 1 => mk2 (1/2) 0 0 0
  | _ => 0
/-- both unknowns in one aggregate -/
def R : Nat → Module.End ℚ (ℚ × ℚ)
  | 0 => mk2 1 1 0 0
  | _ => 0
/-- its transpose -/
def P : Nat → Module.End ℚ (ℚ × ℚ)
  | 0 => mk2 1 0 1 0
  | _ => 0
/-- exact coarse solver -/
def C : Module.End ℚ (ℚ × ℚ) := mk2 (1/2) 0 0 0
/-- vectors with the number of entries of the level -/
def W : Nat → Submodule ℚ (ℚ × ℚ)
  | 0 => ⊤
  | 1 => Submodule.prod ⊤ ⊥
  | _ => ⊥

/-- V(1,1) cycle -/
def S : Setup ℚ (ℚ × ℚ) where
  coarsest := 1
  mat := fun l => A l
  pre := fun l v d => v + S1 l (d - A l v)
  post := fun l v d => v + S2 l (d - A l v)
  restr := fun l => R l
  prol := fun l => P l
  solve := fun _ b => (C b, 0, true)
  damp := 1
  preSteps := 1
  postSteps := 1
  gamma := 1

theorem dot_ok : ScalarProd dot :=
  ⟨fun x y => by simp only [dot]; ring, fun x y z => by simp only [dot, Prod.fst_add, Prod.snd_add]; ring,
    fun c x z => by simp only [dot, Prod.smul_fst, Prod.smul_snd, smul_eq_mul]; ring⟩

theorem mk2_adj (a b c d : ℚ) : Adjoint dot (mk2 a b c d) (mk2 a c b d) := fun x y => by
  simp only [mk2, dot, LinearMap.coe_mk, AddHom.coe_mk]; ring

theorem sym : SymHierarchy dot S A S1 S2 R P C where
  mat := fun _ => rfl
  pre := fun l => funext fun d => by simp [S]
  post := fun l => funext fun d => by simp [S]
  restr := fun _ => rfl
  prol := fun _ => rfl
  solve := fun _ => rfl
  steps := rfl
  A_symm := fun l => match l with
    | 0 => mk2_adj _ _ _ _
    | 1 => mk2_adj _ _ _ _
    | _ + 2 => Adjoint.zero dot_ok
  smoothers := fun l => match l with
    | 0 => mk2_adj _ _ _ _
    | 1 => mk2_adj _ _ _ _
    | _ + 2 => Adjoint.zero dot_ok
  transfer := fun l => match l with
    | 0 => mk2_adj _ _ _ _
    | _ + 1 => Adjoint.zero dot_ok

theorem mem1 {x : ℚ × ℚ} : x ∈ W 1 ↔ x.2 = 0 := by simp [W]
theorem mem2 {l : Nat} {x : ℚ × ℚ} : x ∈ W (l + 2) ↔ x = 0 := by simp [W]

theorem spd : SpdHierarchy dot S W A S1 S2 R P C where
  toSymHierarchy := sym
  mem_A := fun l x hx => match l with
    | 0 => trivial
    | 1 => by rw [mem1]; simp [A, mk2]
    | _ + 2 => by rw [mem2]; rfl
  mem_S1 := fun l x hx => match l with
    | 0 => trivial
    | 1 => by rw [mem1]; simp [S1, mk2]
    | _ + 2 => by rw [mem2]; rfl
  mem_S2 := fun l x hx => match l with
    | 0 => trivial
    | 1 => by rw [mem1]; simp [S2, mk2]
    | _ + 2 => by rw [mem2]; rfl
  mem_R := fun l x hx => match l with
    | 0 => by rw [mem1]; simp [R, mk2]
    | _ + 1 => by rw [mem2]; rfl
  mem_P := fun l x hx => match l with
    | 0 => trivial
    | l + 1 => by
      have : P (l + 1) x = 0 := rfl
      rw [this]; exact (W _).zero_mem
  pos := fun l x hx h0 => match l with
    | 0 => by
      simp only [A, mk2, dot, LinearMap.coe_mk, AddHom.coe_mk]
      by_cases h : x.2 = 0
      · have h1 : x.1 ≠ 0 := fun h1 => h0 (Prod.ext h1 h)
        have := mul_self_pos.2 h1
        rw [h]; nlinarith
      · have := mul_self_pos.2 h
        nlinarith [mul_self_nonneg (2 * x.1 - x.2)]
    | 1 => by
      have hx := mem1.1 hx
      have h1 : x.1 ≠ 0 := fun h1 => h0 (Prod.ext h1 hx)
      have := mul_self_pos.2 h1
      simp only [A, mk2, dot, LinearMap.coe_mk, AddHom.coe_mk]
      rw [hx]; nlinarith
    | _ + 2 => absurd (mem2.1 hx) h0
  regular := fun l r hr => match l with
    | 0 => ⟨((2 * r.1 + r.2) / 3, (r.1 + 2 * r.2) / 3), trivial, by
        simp only [A, mk2, LinearMap.coe_mk, AddHom.coe_mk]; ext <;> simp <;> ring⟩
    | 1 => ⟨(r.1 / 2, 0), by rw [mem1], by
        have hr := mem1.1 hr
        simp only [A, mk2, LinearMap.coe_mk, AddHom.coe_mk]; ext <;> simp [hr] <;> ring⟩
    | _ + 2 => ⟨0, (W _).zero_mem, (mem2.1 hr).symm⟩
  galerkin := fun l x hx => match l with
    | 0 => by
      simp only [A, R, P, mk2, LinearMap.coe_mk, AddHom.coe_mk]; ext <;> simp; ring
    | _ + 1 => rfl
  coarse := fun r hr => by
    have hr := mem1.1 hr
    refine ⟨?_, ?_⟩
    · show C r ∈ W 1
      rw [mem1]; simp [C, mk2]
    · show A 1 (C r) = r
      simp only [A, C, mk2, LinearMap.coe_mk, AddHom.coe_mk]; ext <;> simp [hr]
  smoothing := fun l x hx h0 => match l with
    | 0 => by
      simp only [A, S1, mk2, dot, LinearMap.coe_mk, AddHom.coe_mk, Prod.fst_sub, Prod.snd_sub]
      by_cases h : x.2 = 0
      · have h1 : x.1 ≠ 0 := fun h1 => h0 (Prod.ext h1 h)
        have := mul_self_pos.2 h1
        rw [h]; nlinarith
      · have := mul_self_pos.2 h
        nlinarith [mul_self_nonneg (2 * x.1 - x.2)]
    | 1 => by
      have hx := mem1.1 hx
      have h1 : x.1 ≠ 0 := fun h1 => h0 (Prod.ext h1 hx)
      have := mul_self_pos.2 h1
      simp only [A, S1, mk2, dot, LinearMap.coe_mk, AddHom.coe_mk, Prod.fst_sub, Prod.snd_sub]
      rw [hx]; nlinarith
    | _ + 2 => absurd (mem2.1 hx) h0
  damp := ⟨by simp [S], by simp [S]⟩

/-- the hypotheses of all theorems above hold together -/
example : ScalarProd dot ∧ SpdHierarchy dot S W A S1 S2 R P C ∧ Adjoint dot C C ∧ 0 < S.preSteps ∧
    (⟨fineCursor, [0, 0], [0, 0], [0, 0], true⟩ : State (ℚ × ℚ)).Sized S ∧ S1 0 ≠ S2 0 :=
  ⟨dot_ok, spd, mk2_adj _ _ _ _, by decide, ⟨rfl, rfl, rfl⟩, fun h => by
    have := congrArg (fun f : Module.End ℚ (ℚ × ℚ) => (f (1, 0)).2) h
    simp [S1, S2, mk2] at this⟩

end SpdDemo
end Amg
end Istl
