import Verif.Lemmas.KAmg2

/-! The hierarchy built for a symmetric positive definite matrix is one the Krylov cycle works on. -/

namespace Istl
namespace Amg
open Solver
variable {R K Rl V : Type} [Ring R] [Field K] [LinearOrder K] [IsStrictOrderedRing K] [AddCommGroup V] [Module R V] [Module K V]
variable {F : V → V → K} {A : SpMat R} {s : MH R}

theorem amg_khier [FiniteDimensional K V] (hD : ScalarProd F) (act : R →+ V →+ V) (hact : ∀ a (c : K) x, act a (c • x) = c • act a x)
    (H : IsHierarchy A s) (hA : A.Symmetric F (fun b => act b)) (hP : A.PosDef F (fun b => act b)) (sm : Smoother R V)
    (hsm : ∀ l, SpdSmoother F (fun b => act b) (s.level l) sm) (cs : (Nat → V) → (Nat → V) → (Nat → V) × (Nat → V) × Bool)
    (hc : ExactSolver (fun b => act b) (s.level (s.mats.length - 1)) cs) (damp : K) (hd : 0 ≤ damp ∧ damp ≤ 2) (steps gamma : Nat)
    (Q : KParms K Rl (Nat → V)) (hdot : ∀ l x y, (Q.env l).dot x y = blockDot F (s.level l).n x y)
    (hop : ∀ l x, (Q.env l).op x = levelMul (fun b => act b) (s.level l) x)
    (hsub : ∀ l x b, (Q.env l).subOp x b = b - levelMul (fun b => act b) (s.level l) x) :
    ∃ (W : Nat → Submodule K (Nat → V)) (A' : Nat → Module.End K (Nat → V)),
      KHierarchy (fun l => blockDot F (s.level l).n) (amgOf (fun b => act b) sm s cs damp steps gamma) Q W A' ∧
      (∀ x, x ∈ W 0 ↔ OfSize A.n x) ∧ (∀ x, A' 0 x = levelMul (fun b => act b) A x) := by
  obtain ⟨W, A', S1, S2, Rs, Pr, C, HS, hC, hW0, hA0, _, hW⟩ :=
    amg_spd hD act hact H hA hP sm hsm cs hc (1 : K) ⟨zero_le_one, le_refl _⟩ steps gamma
  have eA : ∀ l x, A' l x = levelMul (fun b => act b) (s.level l) x := fun l x => (congrFun (HS.mat l) x).symm
  have szA : ∀ l x, OfSize (s.level l).n (A' l x) := fun l x i hi => by
    rw [eA]; simp [levelMul, show ¬ i < (s.level l).n by omega]
  -- the scalar products agree as soon as one of the vectors has the right size
  have p1 : ∀ l x y, x ∈ W l → blockDot F (s.level l).n x y = blockDot F A.n x y := fun l x y hx =>
    (blockDot_small hD (level_le H l) ((hW l x).1 hx) y).1.symm
  have p2 : ∀ l x y, x ∈ W l → blockDot F (s.level l).n y x = blockDot F A.n y x := fun l x y hx =>
    (blockDot_small hD (level_le H l) ((hW l x).1 hx) y).2.symm
  have mA : ∀ l x, A' l x ∈ W l := fun l x => (hW l _).2 (szA l x)
  have prod : ∀ l, ScalarProd (blockDot F (s.level l).n) := fun l => blockDot_scalarProd hD _
  have symm : ∀ l, Adjoint (blockDot F (s.level l).n) (A' l) (A' l) := fun l x y => by
    rw [p1 l _ _ (mA l x), p2 l _ _ (mA l y)]
    exact HS.A_symm l x y
  have pos : ∀ l, ∀ x ∈ W l, x ≠ 0 → 0 < blockDot F (s.level l).n (A' l x) x := fun l x hx hne => by
    rw [p1 l _ _ (mA l x)]; exact HS.pos l x hx hne
  have smth : ∀ l, ∀ x ∈ W l, x ≠ 0 → blockDot F (s.level l).n (A' l (x - S1 l (A' l x))) (x - S1 l (A' l x)) <
      blockDot F (s.level l).n (A' l x) x := fun l x hx hne => by
    rw [p1 l _ _ (mA l _), p1 l _ _ (mA l _)]; exact HS.smoothing l x hx hne
  refine ⟨W, A', ?_, hW0, hA0⟩
  refine
  { prod := prod
    mat := fun l x => (eA l x).symm
    symm := symm
    mem_A := fun l x _ => mA l x
    pos := pos
    mem_R := fun l x hx => by have := HS.mem_R l x hx; rw [← HS.restr] at this; exact this
    mem_P := fun l x hx => by have := HS.mem_P l x hx; rw [← HS.prol] at this; exact this
    lin_P := fun l a c _ => by have := map_smul (Pr l) a c; rw [← HS.prol] at this; exact this
    transfer := fun l x hx c hc => ?_
    galerkin := fun l c hc => by
      have := HS.galerkin l c hc
      rw [← HS.restr, ← HS.prol] at this; exact this
    coarse := fun r hr => by
      have := HS.coarse r hr
      rw [← HS.solve] at this; exact this
    pre := fun l r hr => ?_
    post := fun l r hr => ?_
    damp := hd
    dot := hdot
    op := fun l x => by rw [hop, eA]
    sub := fun l x b => by rw [hsub, eA] }
  · have h1 := HS.mem_R l x hx
    have h2 := HS.mem_P l c hc
    have h3 := HS.transfer l x c
    have e1 : (amgOf (fun b => act b) sm s cs damp steps gamma).restr l x = Rs l x := congrFun (HS.restr l) x
    have e2 : (amgOf (fun b => act b) sm s cs damp steps gamma).prol l c = Pr l c := congrFun (HS.prol l) c
    rw [e1, e2, p1 (l + 1) _ _ h1, p2 l _ _ h2, h3]
  · have e1 : (amgOf (fun b => act b) sm s cs damp steps gamma).pre l 0 r = S1 l r := congrFun (HS.pre l) r
    rw [e1]
    obtain ⟨z, hz, rfl⟩ := HS.regular l r hr
    have hlt : A' l z ≠ 0 → quad (blockDot F (s.level l).n) (A' l) (A' l z) (S1 l (A' l z)) < 0 := fun hne => by
      have hz0 : z ≠ 0 := by rintro rfl; exact hne (map_zero _)
      rw [smoother_quad (prod l) (symm l)]
      linarith [smth l z hz hz0]
    refine ⟨HS.mem_S1 l _ hr, ?_, hlt⟩
    by_cases h0 : A' l z = 0
    · rw [h0, map_zero, quad_zero (prod l)]
    · exact (hlt h0).le
  · have e1 : (amgOf (fun b => act b) sm s cs damp steps gamma).post l 0 r = S2 l r := congrFun (HS.post l) r
    rw [e1]
    obtain ⟨z, hz, rfl⟩ := HS.regular l r hr
    refine ⟨HS.mem_S2 l _ hr, ?_⟩
    have := transpose_quad (blockDot_scalarProd hD A.n) (HS.A_symm l) (HS.pos l) (HS.mem_S1 l) (HS.mem_S2 l) (HS.mem_A l) (HS.smoothers l)
      (HS.smoothing l) z hz
    unfold quad at this ⊢
    rw [p1 l _ _ (mA l _), p1 l _ _ (mA l _)]
    exact this

end Amg
end Istl
