import Verif.Lemmas.KAmg
import Verif.Props.C66
import Verif.Lemmas.AmgSolve3

/-! The Krylov cycle decreases the energy. -/

namespace Istl
namespace Amg
open Solver
variable {K Rl V : Type} [Field K] [LinearOrder K] [IsStrictOrderedRing K] [AddCommGroup V] [Module K V] [Zero Rl] [Mul Rl] [Div Rl]
variable {D : Nat → V → V → K} {S : Setup K V} {Q : KParms K Rl V} {W : Nat → Submodule K V} {A : Nat → Module.End K V}

theorem quad_add' {B : V → V → K} {T : Module.End K V} (hB : ScalarProd B) (hs : Adjoint B T T) (b x y : V) :
    quad B T b (x + y) = quad B T b x + quad B T (b - T x) y := by
  rw [quad_add hB hs]
  unfold quad
  ring

theorem quad_zero {B : V → V → K} {T : Module.End K V} (hB : ScalarProd B) (b : V) : quad B T b 0 = 0 := by
  unfold quad
  rw [map_zero, hB.zero, hB.symm, hB.zero]
  ring

/-- Smoothing steps stay in the space and do not increase the functional. -/
theorem relax_quad {B : V → V → K} {U : Submodule K V} {T : Module.End K V} (hB : ScalarProd B) (hs : Adjoint B T T)
    (hT : ∀ x ∈ U, T x ∈ U) {s : V → V} {A' : V → V} (hA : ∀ x, A' x = T x) (h : ∀ r ∈ U, s r ∈ U ∧ quad B T r (s r) ≤ 0) (b : V) (hb : b ∈ U) :
    ∀ (k : Nat) (u : V), u ∈ U → relax A' s b k u ∈ U ∧ quad B T b (relax A' s b k u) ≤ quad B T b u := by
  intro k
  induction k with
  | zero => intro u hu; exact ⟨hu, le_refl _⟩
  | succ k ih =>
    intro u hu
    unfold relax
    have hr : b - A' u ∈ U := by rw [hA]; exact U.sub_mem hb (hT u hu)
    obtain ⟨h1, h2⟩ := h _ hr
    obtain ⟨g1, g2⟩ := ih (u + s (b - A' u)) (U.add_mem hu h1)
    refine ⟨g1, g2.trans ?_⟩
    rw [quad_add' hB hs, ← hA]
    linarith

/-- The correction by a vector `c` with `c^T (r - A c) = 0`. -/
theorem coarse_quad (H : KHierarchy D S Q W A) (l : Nat) (r : V) (hr : r ∈ W l) (c : V) (hc : c ∈ W (l + 1))
    (ho : D (l + 1) (S.restr l r - A (l + 1) c) c = 0) : S.prol l (S.damp • c) ∈ W l ∧ quad (D l) (A l) r (S.prol l (S.damp • c)) ≤ 0 := by
  have hB := H.prod l
  have hB1 := H.prod (l + 1)
  refine ⟨H.mem_P l _ ((W _).smul_mem _ hc), ?_⟩
  rw [H.lin_P l _ c hc]
  unfold quad
  have e1 : D l (A l (S.prol l c)) (S.prol l c) = D (l + 1) (A (l + 1) c) c := by
    rw [H.galerkin l c hc, H.transfer l _ (H.mem_A l _ (H.mem_P l c hc)) c hc]
  have e2 : D l r (S.prol l c) = D (l + 1) (A (l + 1) c) c := by
    rw [← H.transfer l r hr c hc]
    rw [hB1.sub] at ho
    linarith
  rw [map_smul, hB.smul, hB.smul', hB.smul', e1, e2]
  have hp : 0 ≤ D (l + 1) (A (l + 1) c) c := by
    by_cases h0 : c = 0
    · rw [h0, map_zero, hB1.zero]
    · exact (H.pos (l + 1) c hc h0).le
  obtain ⟨d0, d2⟩ := H.damp
  have : S.damp * (S.damp * D (l + 1) (A (l + 1) c) c) - 2 * (S.damp * D (l + 1) (A (l + 1) c) c) =
      S.damp * (S.damp - 2) * D (l + 1) (A (l + 1) c) c := by ring
  rw [this]
  exact mul_nonpos_of_nonpos_of_nonneg (mul_nonpos_of_nonneg_of_nonpos d0 (by linarith)) hp

/-- The Krylov method on a level, preconditioned by any operator on its vectors, leaves a defect orthogonal to the result. -/
theorem kgp_orth (H : KHierarchy D S Q W A) (hf : ∀ l d, (Q.env l).finite d = true) (hr2 : 2 ≤ Q.restart) (hm : Q.maxit ≤ Q.restart) (l : Nat)
    (M : V → V) (hM : ∀ r ∈ W l, M r ∈ W l) (r : V) (hr : r ∈ W l) :
    kgp Q l M r ∈ W l ∧ D l (r - A l (kgp Q l M r)) (kgp Q l M r) = 0 := by
  obtain ⟨e, he, hx, hk⟩ := kgp_run hf hr2 l M r
  have HP : SpdProblem (D l) (W l) (A l) (kEnv (Q.env l) M) :=
    { prod := H.prod l, dot := H.dot l, op := H.op l, sub := H.sub l, symm := H.symm l, mem := H.mem_A l, pos := H.pos l
      prec := fun _ b hb => hM b hb }
  have hd : defect0 (kEnv (Q.env l) M) 0 r = r := by
    show (Q.env l).subOp 0 r = r
    rw [H.sub, map_zero, sub_zero]
  obtain ⟨y, p, h1, h2, _, h4, _, h6, h7, _⟩ := C66_optimal HP Q.red Q.maxit Q.restart Q.maxit hm 0 r e (by rw [hd]; exact hr) he hx
  have h1 : e.x = y := h1
  have h2 : e.b = r - A l y := h2
  have h7 : y - 0 ∈ Submodule.span K (p '' {j | j < e.it.i}) := h7
  rw [sub_zero] at h7
  rw [hk, h1, ← h2]
  refine ⟨?_, orth_span (H.prod l) (by rintro _ ⟨j, hj, rfl⟩; exact h6 j hj) y h7⟩
  exact Submodule.span_le.mpr (by rintro _ ⟨j, hj, rfl⟩; exact h4 j hj) h7

/-- The cycle stays in the space and decreases the energy functional. -/
theorem kmg_quad (H : KHierarchy D S Q W A) (hf : ∀ l d, (Q.env l).finite d = true) (hr2 : 2 ≤ Q.restart) (hm : Q.maxit ≤ Q.restart) :
    ∀ (d l : Nat), l + (d + 1) = S.coarsest → ∀ b ∈ W l, kmg S Q (d + 1) l b ∈ W l ∧
      quad (D l) (A l) b (kmg S Q (d + 1) l b) ≤ 0 ∧ (0 < S.preSteps → b ≠ 0 → quad (D l) (A l) b (kmg S Q (d + 1) l b) < 0) := by
  intro d
  induction d with
  | zero =>
    intro l hl b hb
    obtain ⟨m1, m2, m3, m4⟩ : relax (S.mat l) (S.pre l 0) b S.preSteps 0 ∈ W l ∧ quad (D l) (A l) b (relax (S.mat l) (S.pre l 0) b S.preSteps 0) ≤ 0 ∧
        (0 < S.preSteps → b ≠ 0 → quad (D l) (A l) b (relax (S.mat l) (S.pre l 0) b S.preSteps 0) < 0) ∧
        b - S.mat l (relax (S.mat l) (S.pre l 0) b S.preSteps 0) ∈ W l := by
      have key := relax_quad (H.prod l) (H.symm l) (H.mem_A l) (H.mat l) (fun r hr => ⟨(H.pre l r hr).1, (H.pre l r hr).2.1⟩) b hb
      obtain ⟨k1, k2⟩ := key S.preSteps 0 (W l).zero_mem
      rw [quad_zero (H.prod l)] at k2
      refine ⟨k1, k2, fun hk hne => ?_, by rw [H.mat]; exact (W l).sub_mem hb (H.mem_A l _ k1)⟩
      obtain ⟨k, hk⟩ : ∃ k, S.preSteps = k + 1 := ⟨S.preSteps - 1, by omega⟩
      rw [hk, relax]
      have e0 : b - S.mat l 0 = b := by rw [H.mat, map_zero, sub_zero]
      rw [e0, zero_add]
      exact lt_of_le_of_lt (key k _ (H.pre l b hb).1).2 ((H.pre l b hb).2.2 hne)
    set u := relax (S.mat l) (S.pre l 0) b S.preSteps 0 with hu
    have hrc : S.restr l (b - S.mat l u) ∈ W (l + 1) := H.mem_R l _ m4
    obtain ⟨s1, s2⟩ := H.coarse (S.restr l (b - S.mat l u)) (by rw [show S.coarsest = l + 1 by omega]; exact hrc)
    rw [show S.coarsest = l + 1 by omega] at s1 s2
    obtain ⟨q1, q2⟩ := coarse_quad H l _ m4 _ s1 (by rw [s2, sub_self, (H.prod _).zero])
    obtain ⟨r1, r2⟩ := relax_quad (H.prod l) (H.symm l) (H.mem_A l) (H.mat l) (H.post l) b hb S.postSteps _ ((W l).add_mem m1 q1)
    rw [quad_add' (H.prod l) (H.symm l), ← H.mat] at r2
    exact ⟨r1, le_trans r2 (by linarith), fun hk hne => lt_of_le_of_lt r2 (by linarith [m3 hk hne])⟩
  | succ d ih =>
    intro l hl b hb
    obtain ⟨m1, m2, m3, m4⟩ : relax (S.mat l) (S.pre l 0) b S.preSteps 0 ∈ W l ∧ quad (D l) (A l) b (relax (S.mat l) (S.pre l 0) b S.preSteps 0) ≤ 0 ∧
        (0 < S.preSteps → b ≠ 0 → quad (D l) (A l) b (relax (S.mat l) (S.pre l 0) b S.preSteps 0) < 0) ∧
        b - S.mat l (relax (S.mat l) (S.pre l 0) b S.preSteps 0) ∈ W l := by
      have key := relax_quad (H.prod l) (H.symm l) (H.mem_A l) (H.mat l) (fun r hr => ⟨(H.pre l r hr).1, (H.pre l r hr).2.1⟩) b hb
      obtain ⟨k1, k2⟩ := key S.preSteps 0 (W l).zero_mem
      rw [quad_zero (H.prod l)] at k2
      refine ⟨k1, k2, fun hk hne => ?_, by rw [H.mat]; exact (W l).sub_mem hb (H.mem_A l _ k1)⟩
      obtain ⟨k, hk⟩ : ∃ k, S.preSteps = k + 1 := ⟨S.preSteps - 1, by omega⟩
      rw [hk, relax]
      have e0 : b - S.mat l 0 = b := by rw [H.mat, map_zero, sub_zero]
      rw [e0, zero_add]
      exact lt_of_le_of_lt (key k _ (H.pre l b hb).1).2 ((H.pre l b hb).2.2 hne)
    set u := relax (S.mat l) (S.pre l 0) b S.preSteps 0 with hu
    have hrc : S.restr l (b - S.mat l u) ∈ W (l + 1) := H.mem_R l _ m4
    obtain ⟨s1, s2⟩ := kgp_orth H hf hr2 hm (l + 1) (kmg S Q (d + 1) (l + 1)) (fun r hr => (ih (l + 1) (by omega) r hr).1) _ hrc
    obtain ⟨q1, q2⟩ := coarse_quad H l _ m4 _ s1 s2
    obtain ⟨r1, r2⟩ := relax_quad (H.prod l) (H.symm l) (H.mem_A l) (H.mat l) (H.post l) b hb S.postSteps _ ((W l).add_mem m1 q1)
    rw [quad_add' (H.prod l) (H.symm l), ← H.mat] at r2
    exact ⟨r1, le_trans r2 (by linarith), fun hk hne => lt_of_le_of_lt r2 (by linarith [m3 hk hne])⟩

/-! ### Hierarchies of matrices -/

/-- the transposed smoother does not increase the energy either -/
theorem transpose_quad {B : V → V → K} {U : Submodule K V} {T S1 S2 : Module.End K V} (hB : ScalarProd B) (hs : Adjoint B T T)
    (pos : ∀ x ∈ U, x ≠ 0 → 0 < B (T x) x) (memS1 : ∀ x ∈ U, S1 x ∈ U) (memS2 : ∀ x ∈ U, S2 x ∈ U) (memT : ∀ x ∈ U, T x ∈ U) (ha : Adjoint B S1 S2)
    (smoothing : ∀ x ∈ U, x ≠ 0 → B (T (x - S1 (T x))) (x - S1 (T x)) < B (T x) x) (x : V) (hx : x ∈ U) :
    quad B T (T x) (S2 (T x)) ≤ 0 := by
  have nn : ∀ z ∈ U, 0 ≤ B (T z) z := by
    intro z hz
    by_cases h0 : z = 0
    · rw [h0, map_zero, hB.zero]
    · exact (pos z hz h0).le
  set y := x - S2 (T x) with hy
  have my : y ∈ U := U.sub_mem hx (memS2 _ (memT _ hx))
  set w := y - S1 (T y) with hw
  have mw : w ∈ U := U.sub_mem my (memS1 _ (memT _ my))
  have h1 : B (T w) w ≤ B (T y) y := by
    by_cases h0 : y = 0
    · rw [hw, h0]; simp [hB.zero]
    · exact (smoothing y my h0).le
  have h2 : B (T w) x = B (T y) y := by
    rw [hw, map_sub, hB.sub]
    have : B (T (S1 (T y))) x = B (T y) (S2 (T x)) := by rw [hs, ha]
    rw [this, ← hB.sub', ← hy]
  have h3 := nn (w - x) (U.sub_mem mw hx)
  have sy : B (T x) w = B (T w) x := by rw [hs, hB.symm]
  rw [map_sub, hB.sub, hB.sub' (T w) w x, hB.sub' (T x) w x, sy, h2] at h3
  have h4 : B (T y) y = B (T x) x + quad B T (T x) (S2 (T x)) := by
    unfold quad
    have : B (T (S2 (T x))) x = B (T x) (S2 (T x)) := by rw [hs, hB.symm]
    rw [hy, map_sub, hB.sub, hB.sub', hB.sub', this]
    ring
  linarith

theorem smoother_quad {B : V → V → K} {T S1 : Module.End K V} (hB : ScalarProd B) (hs : Adjoint B T T) (x : V) :
    quad B T (T x) (S1 (T x)) = B (T (x - S1 (T x))) (x - S1 (T x)) - B (T x) x := by
  unfold quad
  have : B (T (S1 (T x))) x = B (T x) (S1 (T x)) := by rw [hs, hB.symm]
  rw [map_sub, hB.sub, hB.sub', hB.sub', this]
  ring

end Amg
end Istl
