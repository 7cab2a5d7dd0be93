import Verif.Lemmas.Adjoint
import Verif.Props.C46
import Mathlib.Tactic.Linarith

/-! Energy estimates for the multigrid cycle. -/

namespace Istl
namespace Amg
variable {K V : Type} [CommRing K] [AddCommGroup V] [Module K V]

section symm
variable {B : V → V → K} {S : Setup K V} {A S1 S2 R P : Nat → Module.End K V} {C : Module.End K V}

/-- The cycle is a symmetric linear operator. -/
theorem mg_adj (hB : ScalarProd B) (H : SymHierarchy B S A S1 S2 R P C) (hC : Adjoint B C C) :
    ∀ d l, ∃ M : Module.End K V, mg S d l = M ∧ Adjoint B M M := by
  intro d
  induction d with
  | zero => intro l; exact ⟨C, funext H.solve, hC⟩
  | succ d ih =>
    intro l
    obtain ⟨M, eM, aM⟩ := ih (l + 1)
    -- the coarse correction operator
    let Q : Module.End K V := if d = 0 then (if S.gamma = 0 then 0 else C) else relaxOp (A (l + 1)) M S.gamma
    have hQ : ∀ r : V, (if d = 0 then (if S.gamma = 0 then 0 else (S.solve 0 r).1) else relax (S.mat (l + 1)) (mg S d (l + 1)) r S.gamma 0) =
        Q r := by
      intro r
      by_cases hd : d = 0
      · by_cases hg : S.gamma = 0
        · simp [Q, hd, hg]
        · simp [Q, hd, hg, H.solve]
      · simp [Q, hd, H.mat, eM, relax_op]
    have aQ : Adjoint B Q Q := by
      by_cases hd : d = 0
      · by_cases hg : S.gamma = 0
        · simpa [Q, hd, hg] using Adjoint.zero hB
        · simpa [Q, hd, hg] using hC
      · simpa [Q, hd] using relaxOp_adj hB (H.A_symm _) aM S.gamma
    set k := S.preSteps with hk
    set T1 := relaxOp (A l) (S1 l) k with hT1
    set T2 := relaxOp (A l) (S2 l) k with hT2
    have aT : Adjoint B T1 T2 := relaxOp_adj hB (H.A_symm l) (H.smoothers l) k
    have eU2 : (1 - S2 l * A l) ^ k = 1 - T2 * A l := by rw [relaxOp_mul]; noncomm_ring
    refine ⟨T2 + (1 - T2 * A l) * (T1 + S.damp • (P l * Q * R l * (1 - A l * T1))), ?_, ?_⟩
    · funext b
      simp only [mg]
      rw [hQ, ← H.steps, ← hk]
      simp only [H.mat, H.pre, H.post, H.restr, H.prol, relax_op, map_zero, add_zero, eU2]
      simp only [LinearMap.add_apply, Module.End.mul_apply, LinearMap.sub_apply, Module.End.one_apply, LinearMap.smul_apply, map_smul, hT1, hT2]
    · have e : T2 + (1 - T2 * A l) * (T1 + S.damp • (P l * Q * R l * (1 - A l * T1))) =
          (T2 + T1) - T2 * (A l * T1) + S.damp • ((1 - T2 * A l) * (P l * (Q * (R l * (1 - A l * T1))))) := by
        simp only [mul_add, sub_mul, one_mul, mul_smul_comm, mul_assoc]
        abel
      rw [e]
      have a1 : Adjoint B (T2 + T1) (T2 + T1) := (Adjoint.add hB (aT.symm hB) aT).congr (add_comm _ _)
      have a2 : Adjoint B (T2 * (A l * T1)) (T2 * (A l * T1)) :=
        ((aT.symm hB).mul ((H.A_symm l).mul aT)).congr (by rw [mul_assoc])
      have a3 : Adjoint B (1 - A l * T1) (1 - T2 * A l) := Adjoint.sub hB Adjoint.one ((H.A_symm l).mul aT)
      have a4 : Adjoint B ((1 - T2 * A l) * (P l * (Q * (R l * (1 - A l * T1))))) ((1 - T2 * A l) * (P l * (Q * (R l * (1 - A l * T1))))) :=
        ((a3.symm hB).mul (((H.transfer l).symm hB).mul (aQ.mul ((H.transfer l).mul a3)))).congr (by simp only [mul_assoc])
      exact Adjoint.add hB (Adjoint.sub hB a1 a2) (Adjoint.smul hB _ a4)

end symm

/-! ### Energy -/
section spd
variable [LinearOrder K] [IsStrictOrderedRing K]

/-- A symmetric nonnegative form on a subspace and an operator between `0` and `1` with respect to it. -/
structure Between (F : V → V → K) (W : Submodule K V) (E : V → V) : Prop where
  mem : ∀ x ∈ W, E x ∈ W
  symm : ∀ x ∈ W, ∀ y ∈ W, F (E x) y = F x (E y)
  nonneg : ∀ x ∈ W, 0 ≤ F (E x) x
  le : ∀ x ∈ W, F (E x) x ≤ F x x

theorem Between.norm {F : V → V → K} {W : Submodule K V} {E : Module.End K V} (hF : ScalarProd F) (h : Between F W E) (x : V) (hx : x ∈ W) :
    F (E x) (E x) ≤ F (E x) x := by
  have m1 := h.mem x hx
  have h1 := h.nonneg (x - E x) (W.sub_mem hx m1)
  have h2 := h.le (E x) m1
  simp only [map_sub, hF.sub, hF.sub'] at h1
  have h3 := h.symm (E x) m1 x hx
  linarith

theorem Between.pow {F : V → V → K} {W : Submodule K V} {E : Module.End K V} (hF : ScalarProd F) (h : Between F W E) (hp : ∀ x ∈ W, 0 ≤ F x x) :
    ∀ k : Nat, Between F W (E ^ k : Module.End K V) := by
  have mem : ∀ k : Nat, ∀ x ∈ W, (E ^ k) x ∈ W := by
    intro k
    induction k with
    | zero => intro x hx; simpa using hx
    | succ k ih => intro x hx; rw [pow_succ, Module.End.mul_apply]; exact ih _ (h.mem x hx)
  have symm : ∀ k : Nat, ∀ x ∈ W, ∀ y ∈ W, F ((E ^ k) x) y = F x ((E ^ k) y) := by
    intro k
    induction k with
    | zero => intro x _ y _; simp
    | succ k ih =>
      intro x hx y hy
      rw [pow_succ, Module.End.mul_apply, ih _ (h.mem x hx) y hy, h.symm x hx _ (mem k y hy), ← Module.End.mul_apply,
        ← pow_succ', pow_succ]
  have norm : ∀ k : Nat, ∀ x ∈ W, F ((E ^ k) x) ((E ^ k) x) ≤ F x x := by
    intro k
    induction k with
    | zero => intro x hx; simp
    | succ k ih =>
      intro x hx
      rw [pow_succ, Module.End.mul_apply]
      exact (ih _ (h.mem x hx)).trans ((h.norm hF x hx).trans (h.le x hx))
  have split : ∀ m : Nat, ∀ x ∈ W, F ((E ^ (m + m)) x) x = F ((E ^ m) x) ((E ^ m) x) := by
    intro m x hx
    rw [pow_add, Module.End.mul_apply, symm m _ (mem m x hx) x hx]
  have split' : ∀ m : Nat, ∀ x ∈ W, F ((E ^ (m + m + 1)) x) x = F (E ((E ^ m) x)) ((E ^ m) x) := by
    intro m x hx
    have e : E ^ (m + m + 1) = E ^ m * (E * E ^ m) := by rw [← pow_succ', ← pow_add]; rfl
    rw [e, Module.End.mul_apply, Module.End.mul_apply, symm m _ (h.mem _ (mem m x hx)) x hx]
  intro k
  refine ⟨mem k, symm k, fun x hx => ?_, fun x hx => ?_⟩
  · obtain ⟨m, rfl | rfl⟩ : ∃ m, k = m + m ∨ k = m + m + 1 := ⟨k / 2, by omega⟩
    · rw [split m x hx]; exact hp _ (mem m x hx)
    · rw [split' m x hx]; exact h.nonneg _ (mem m x hx)
  · obtain ⟨m, rfl | rfl⟩ : ∃ m, k = m + m ∨ k = m + m + 1 := ⟨k / 2, by omega⟩
    · rw [split m x hx]; exact norm m x hx
    · rw [split' m x hx]; exact (h.le _ (mem m x hx)).trans (norm m x hx)

variable {B : V → V → K} {S : Setup K V} {W : Nat → Submodule K V} {A S1 S2 R P : Nat → Module.End K V} {C : Module.End K V}

/-- The energy form of a symmetric matrix is a scalar product. -/
theorem energy_form (hB : ScalarProd B) {A : Module.End K V} (hA : Adjoint B A A) : ScalarProd (fun x y => B (A x) y) where
  symm := fun x y => by rw [hA, hB.symm]
  add := fun x y z => by simp only [map_add, hB.add]
  smul := fun c x z => by simp only [map_smul, hB.smul]

/-- One level: if the coarse error operator `z ↦ z - Q A z` lies between `0` and `1`, so does that of the cycle, and strictly below `1`. -/
theorem level_step (hB : ScalarProd B) (H : SpdHierarchy B S W A S1 S2 R P C) (l : Nat) (Q : Module.End K V)
    (memQ : ∀ r ∈ W (l + 1), Q r ∈ W (l + 1))
    (hQ : Between (fun x y => B (A (l + 1) x) y) (W (l + 1)) (fun z => z - Q (A (l + 1) z))) (E : V → V)
    (hE : ∀ x, E x = ((1 - S2 l * A l) ^ S.preSteps * (1 - S.damp • (P l * Q * R l * A l)) * (1 - S1 l * A l) ^ S.preSteps) x) :
    Between (fun x y => B (A l x) y) (W l) E ∧
      (0 < S.preSteps → ∀ x ∈ W l, x ≠ 0 → B (A l (E x)) x < B (A l x) x) := by
  have hF := energy_form hB (H.A_symm l)
  have hFc := energy_form hB (H.A_symm (l + 1))
  set k := S.preSteps
  set U := (1 - S1 l * A l) with hU
  set U' := (1 - S2 l * A l) with hU'
  set N := (1 - S.damp • (P l * Q * R l * A l)) with hN
  have hE' : ∀ x, E x = (U' ^ k) (N ((U ^ k) x)) := fun x => by rw [hE]; rfl
  have memU : ∀ x ∈ W l, U x ∈ W l := fun x hx => by
    simp only [hU, LinearMap.sub_apply, Module.End.one_apply, Module.End.mul_apply]
    exact (W l).sub_mem hx (H.mem_S1 l _ (H.mem_A l x hx))
  have memU' : ∀ x ∈ W l, U' x ∈ W l := fun x hx => by
    simp only [hU', LinearMap.sub_apply, Module.End.one_apply, Module.End.mul_apply]
    exact (W l).sub_mem hx (H.mem_S2 l _ (H.mem_A l x hx))
  have memN : ∀ x ∈ W l, N x ∈ W l := fun x hx => by
    simp only [hN, LinearMap.sub_apply, Module.End.one_apply, Module.End.mul_apply, LinearMap.smul_apply]
    exact (W l).sub_mem hx ((W l).smul_mem _ (H.mem_P l _ (memQ _ (H.mem_R l _ (H.mem_A l x hx)))))
  have mempow : ∀ (G : Module.End K V), (∀ x ∈ W l, G x ∈ W l) → ∀ (j : Nat), ∀ x ∈ W l, (G ^ j) x ∈ W l := by
    intro G hG j
    induction j with
    | zero => intro x hx; simpa using hx
    | succ j ih => intro x hx; rw [pow_succ, Module.End.mul_apply]; exact ih _ (hG x hx)
  -- the smoothers are adjoint in energy
  have aU : ∀ x y, B (A l (U x)) y = B (A l x) (U' y) := by
    intro x y
    simp only [hU, hU', LinearMap.sub_apply, Module.End.one_apply, Module.End.mul_apply, map_sub, hB.sub, hB.sub']
    rw [H.A_symm l (S1 l (A l x)) y, H.smoothers l (A l x) (A l y)]
  have aUk : ∀ (j : Nat) x y, B (A l ((U ^ j) x)) y = B (A l x) ((U' ^ j) y) := by
    intro j
    induction j with
    | zero => intro x y; simp
    | succ j ih =>
      intro x y
      rw [pow_succ, Module.End.mul_apply, ih, aU, pow_succ', Module.End.mul_apply]
  have aUk' : ∀ (j : Nat) x y, B (A l ((U' ^ j) x)) y = B (A l x) ((U ^ j) y) := by
    intro j x y
    rw [hF.symm, ← aUk, hF.symm]
  -- coarse part
  have key : ∀ x ∈ W l, ∀ y ∈ W l, ∃ z ∈ W (l + 1), ∃ w ∈ W (l + 1), A (l + 1) z = R l (A l x) ∧ A (l + 1) w = R l (A l y) ∧
      B (A l (N x)) y = B (A l x) y - S.damp * (B (A (l + 1) z) w - B (A (l + 1) (z - Q (A (l + 1) z))) w) := by
    intro x hx y hy
    obtain ⟨z, hz, ez⟩ := H.regular (l + 1) _ (H.mem_R l _ (H.mem_A l x hx))
    obtain ⟨w, hw, ew⟩ := H.regular (l + 1) _ (H.mem_R l _ (H.mem_A l y hy))
    refine ⟨z, hz, w, hw, ez, ew, ?_⟩
    have h1 : B (A l (N x)) y = B (A l x) y - S.damp * B (A l (P l (Q (R l (A l x))))) y := by
      simp only [hN, LinearMap.sub_apply, Module.End.one_apply, Module.End.mul_apply, LinearMap.smul_apply, map_sub, map_smul, hB.sub, hB.smul]
    have h2 : B (A l (P l (Q (R l (A l x))))) y = B (Q (A (l + 1) z)) (A (l + 1) w) := by
      rw [H.A_symm l, ((H.transfer l).symm hB) _ _, ez, ew]
    rw [h1, h2, map_sub, hB.sub, H.A_symm (l + 1) (Q (A (l + 1) z)) w]
    ring
  have symN : ∀ x ∈ W l, ∀ y ∈ W l, B (A l (N x)) y = B (A l x) (N y) := by
    intro x hx y hy
    obtain ⟨z, hz, w, hw, ez, ew, e⟩ := key x hx y hy
    obtain ⟨w', hw', z', hz', ew', ez', e'⟩ := key y hy x hx
    rw [hF.symm x (N y), e, e', hF.symm y x]
    have s1 := hQ.symm z hz w hw
    have g1 : ∀ a b, B (A (l + 1) a) b = B a (A (l + 1) b) := H.A_symm (l + 1)
    -- replace z', w' by z, w
    have c1 : B (A (l + 1) w') z' = B (A (l + 1) z) w := by
      rw [ew', ← ew, g1, ez', ← ez, hB.symm]
    have c2 : B (A (l + 1) (w' - Q (A (l + 1) w'))) z' = B (A (l + 1) (z - Q (A (l + 1) z))) w := by
      have : B (A (l + 1) (w' - Q (A (l + 1) w'))) z' = B (A (l + 1) (w - Q (A (l + 1) w))) z := by
        rw [map_sub, map_sub, ew', ← ew, hB.sub, hB.sub, g1 w z', g1 _ z', ez', ← ez, g1 w z, g1 _ z]
      rw [this, s1]
      exact hFc.symm _ _
    rw [c1, c2]
  have boundN : ∀ x ∈ W l, 0 ≤ B (A l (N x)) x ∧ B (A l (N x)) x ≤ B (A l x) x := by
    intro x hx
    obtain ⟨z, hz, w, hw, ez, ew, e⟩ := key x hx x hx
    have g1 : ∀ a b, B (A (l + 1) a) b = B a (A (l + 1) b) := H.A_symm (l + 1)
    have c1 : ∀ a, B (A (l + 1) a) w = B (A (l + 1) a) z := fun a => by rw [g1, ew, ← ez, g1]
    rw [c1, c1] at e
    have n1 := hQ.nonneg z hz
    have n2 := hQ.le z hz
    -- projection estimate
    have p1 : B (A (l + 1) z) z = B (A l (P l z)) (P l z) := by
      rw [H.galerkin l z hz, H.transfer l]
    have p2 : B (A (l + 1) z) z = B (A l x) (P l z) := by rw [ez, H.transfer l]
    have p3 : 0 ≤ B (A l (x - P l z)) (x - P l z) := by
      by_cases h0 : x - P l z = 0
      · rw [h0, map_zero, hB.zero]
      · exact (H.pos l _ ((W l).sub_mem hx (H.mem_P l z hz)) h0).le
    have p4 : B (A (l + 1) z) z ≤ B (A l x) x := by
      simp only [map_sub, hB.sub, hB.sub'] at p3
      have := hF.symm (P l z) x
      linarith
    obtain ⟨d0, d1⟩ := H.damp
    have t0 : 0 ≤ B (A (l + 1) z) z - B (A (l + 1) (z - Q (A (l + 1) z))) z := sub_nonneg.2 n2
    have t1 : S.damp * (B (A (l + 1) z) z - B (A (l + 1) (z - Q (A (l + 1) z))) z) ≤
        B (A (l + 1) z) z - B (A (l + 1) (z - Q (A (l + 1) z))) z := mul_le_of_le_one_left t0 d1
    have t2 := mul_nonneg d0 t0
    have n1' : 0 ≤ B (A (l + 1) (z - Q (A (l + 1) z))) z := n1
    rw [e]
    constructor <;> linarith
  have contr : ∀ x ∈ W l, B (A l (U x)) (U x) ≤ B (A l x) x := by
    intro x hx
    by_cases h0 : x = 0
    · subst h0; simp
    · have := H.smoothing l x hx h0
      exact this.le
  have contrk : ∀ (j : Nat), ∀ x ∈ W l, B (A l ((U ^ j) x)) ((U ^ j) x) ≤ B (A l x) x := by
    intro j
    induction j with
    | zero => intro x hx; simp
    | succ j ih => intro x hx; rw [pow_succ, Module.End.mul_apply]; exact (ih _ (memU x hx)).trans (contr x hx)
  have main : ∀ x, B (A l (E x)) x = B (A l (N ((U ^ k) x))) ((U ^ k) x) := fun x => by rw [hE', aUk']
  refine ⟨⟨fun x hx => ?_, fun x hx y hy => ?_, fun x hx => ?_, fun x hx => ?_⟩, fun hk x hx h0 => ?_⟩
  · rw [hE']; exact mempow U' memU' k _ (memN _ (mempow U memU k x hx))
  · show B (A l (E x)) y = B (A l x) (E y)
    rw [hE', hE', aUk', symN _ (mempow U memU k x hx) _ (mempow U memU k y hy), aUk]
  · show 0 ≤ B (A l (E x)) x
    rw [main]; exact (boundN _ (mempow U memU k x hx)).1
  · show B (A l (E x)) x ≤ B (A l x) x
    rw [main]; exact (boundN _ (mempow U memU k x hx)).2.trans (contrk k x hx)
  · rw [main]
    refine lt_of_le_of_lt (boundN _ (mempow U memU k x hx)).2 ?_
    obtain ⟨j, hj⟩ : ∃ j, k = j + 1 := ⟨k - 1, by omega⟩
    rw [hj, pow_succ, Module.End.mul_apply]
    exact lt_of_le_of_lt (contrk j _ (memU x hx)) (H.smoothing l x hx h0)

/-- All levels. -/
theorem mg_spd (hB : ScalarProd B) (H : SpdHierarchy B S W A S1 S2 R P C) (hk : 0 < S.preSteps) :
    ∀ d l, l + d = S.coarsest → ∃ M : Module.End K V, mg S d l = M ∧ (∀ r ∈ W l, M r ∈ W l) ∧
      Between (fun x y => B (A l x) y) (W l) (fun z => z - M (A l z)) ∧
      ∀ x ∈ W l, x ≠ 0 → B (A l (x - M (A l x))) x < B (A l x) x := by
  have inj : ∀ l, ∀ x ∈ W l, ∀ y ∈ W l, A l x = A l y → x = y := by
    intro l x hx y hy h
    by_contra hne
    have := H.pos l (x - y) ((W l).sub_mem hx hy) (sub_ne_zero.2 hne)
    rw [map_sub, h, sub_self, hB.zero] at this
    exact lt_irrefl _ this
  have nn : ∀ l, ∀ x ∈ W l, 0 ≤ B (A l x) x := by
    intro l x hx
    by_cases h0 : x = 0
    · rw [h0, map_zero, hB.zero]
    · exact (H.pos l x hx h0).le
  -- exact coarse solver
  have exact : ∀ x ∈ W S.coarsest, C (A S.coarsest x) = x := fun x hx =>
    inj _ _ (H.coarse _ (H.mem_A _ x hx)).1 _ hx (H.coarse _ (H.mem_A _ x hx)).2
  have bC : Between (fun x y => B (A S.coarsest x) y) (W S.coarsest) (fun z => z - C (A S.coarsest z)) := by
    refine ⟨fun x hx => ?_, fun x hx y hy => ?_, fun x hx => ?_, fun x hx => ?_⟩
    · rw [exact x hx, sub_self]; exact (W _).zero_mem
    · rw [exact x hx, exact y hy, sub_self, sub_self, map_zero, hB.zero, hB.symm, hB.zero]
    · rw [exact x hx, sub_self, map_zero, hB.zero]
    · rw [exact x hx, sub_self, map_zero, hB.zero]; exact nn _ x hx
  intro d
  induction d with
  | zero =>
    intro l hl
    have hl : l = S.coarsest := by omega
    subst hl
    refine ⟨C, funext H.solve, fun r hr => (H.coarse r hr).1, bC, fun x hx h0 => ?_⟩
    rw [exact x hx, sub_self, map_zero, hB.zero]
    exact H.pos _ x hx h0
  | succ d ih =>
    intro l hl
    obtain ⟨M, eM, mM, bM, _⟩ := ih (l + 1) (by omega)
    obtain ⟨M', hM'⟩ := C46_cycle_linear A S1 S2 R P C S H.mat H.pre H.post H.restr H.prol H.solve (d + 1) l
    -- the coarse correction operator
    obtain ⟨Q, hQ, mQ, bQ⟩ : ∃ Q : Module.End K V,
        (∀ r : V, (if d = 0 then (if S.gamma = 0 then 0 else (S.solve 0 r).1) else relax (S.mat (l + 1)) (mg S d (l + 1)) r S.gamma 0) = Q r) ∧
        (∀ r ∈ W (l + 1), Q r ∈ W (l + 1)) ∧
        Between (fun x y => B (A (l + 1) x) y) (W (l + 1)) (fun z => z - Q (A (l + 1) z)) := by
      by_cases hd : d = 0
      · have hl1 : l + 1 = S.coarsest := by omega
        by_cases hg : S.gamma = 0
        · refine ⟨0, fun r => by simp [hd, hg], fun r _ => by simp, ⟨fun x hx => by simpa using hx, fun x _ y _ => by simp,
            fun x hx => by simpa using nn _ x hx, fun x _ => by simp⟩⟩
        · refine ⟨C, fun r => by simp [hd, hg, H.solve], ?_, ?_⟩
          · rw [hl1]; exact fun r hr => (H.coarse r hr).1
          · rw [hl1]; exact bC
      · refine ⟨relaxOp (A (l + 1)) M S.gamma, fun r => by simp [hd, H.mat, eM, relax_op], ?_, ?_⟩
        · have : ∀ (k : Nat), ∀ r ∈ W (l + 1), ∀ u ∈ W (l + 1), relax (A (l + 1)) M r k u ∈ W (l + 1) := by
            intro k
            induction k with
            | zero => intro r _ u hu; exact hu
            | succ k ihk =>
              intro r hr u hu
              exact ihk r hr _ ((W _).add_mem hu (mM _ ((W _).sub_mem hr (H.mem_A _ u hu))))
          intro r hr
          have := this S.gamma r hr 0 (W _).zero_mem
          rwa [relax_op, map_zero, add_zero] at this
        · have hpow := Between.pow (E := 1 - M * A (l + 1)) (energy_form hB (H.A_symm (l + 1)))
            (by
              have e : ((1 - M * A (l + 1) : Module.End K V) : V → V) = fun z => z - M (A (l + 1) z) := funext fun z => by simp
              rw [e]; exact bM) (nn (l + 1)) S.gamma
          have e : (fun z => z - relaxOp (A (l + 1)) M S.gamma (A (l + 1) z)) = ((1 - M * A (l + 1)) ^ S.gamma : Module.End K V) := by
            funext z
            have := relaxOp_mul (A (l + 1)) M S.gamma
            rw [← Module.End.mul_apply, this]
            simp
          rw [e]; exact hpow
    have hE : ∀ x, x - M' (A l x) =
        ((1 - S2 l * A l) ^ S.preSteps * (1 - S.damp • (P l * Q * R l * A l)) * (1 - S1 l * A l) ^ S.preSteps) x := by
      intro x
      rw [← hM']
      simp only [mg]
      rw [hQ, ← H.steps]
      simp only [H.mat, H.pre, H.post, H.restr, H.prol]
      rw [relax_error, Module.End.mul_apply, Module.End.mul_apply]
      congr 1
      have := relax_error (A l) (S1 l) x S.preSteps 0
      rw [sub_zero] at this
      rw [← this]
      simp only [LinearMap.sub_apply, Module.End.one_apply, Module.End.mul_apply, LinearMap.smul_apply, map_smul, map_sub, smul_sub]
      abel
    obtain ⟨b, st⟩ := level_step hB H l Q mQ bQ (fun x => x - M' (A l x)) hE
    refine ⟨M', funext hM', fun r hr => ?_, b, st hk⟩
    obtain ⟨z, hz, rfl⟩ := H.regular l r hr
    have := (W l).sub_mem hz (b.mem z hz)
    simpa using this

end spd
end Amg
end Istl
