import Verif.Lemmas.AmgSolve2

/-! The hierarchy that `MatrixHierarchy::build` makes of a symmetric positive definite matrix, as a `SpdHierarchy`. -/

namespace Istl
namespace Amg
open Prec Gsetc
variable {R K V : Type}
variable [Ring R] {A : SpMat R} {s : MH R}
variable [Field K] [LinearOrder K] [IsStrictOrderedRing K] [AddCommGroup V] [Module R V] [Module K V] {D : V → V → K}

theorem blockDot_small (hD : ScalarProd D) {n m : Nat} (h : n ≤ m) {x : Nat → V} (hx : OfSize n x) (y : Nat → V) :
    blockDot D m x y = blockDot D n x y ∧ blockDot D m y x = blockDot D n y x := by
  have sub : Finset.range n ⊆ Finset.range m := fun i hi => by
    rw [Finset.mem_range] at *; omega
  constructor
  · refine (Finset.sum_subset sub ?_).symm
    intro i _ hi
    rw [hx i (by simpa using hi), hD.zero]
  · refine (Finset.sum_subset sub ?_).symm
    intro i _ hi
    rw [hx i (by simpa using hi), hD.symm, hD.zero]

theorem adjoint_lift (hD : ScalarProd D) {n m : Nat} (h : n ≤ m) {X Y : Module.End K (Nat → V)} (hX : ∀ d, OfSize n (X d))
    (hY : ∀ d, OfSize n (Y d)) (ha : Adjoint (blockDot D n) X Y) : Adjoint (blockDot D m) X Y := fun x y => by
  rw [(blockDot_small hD h (hX x) y).1, (blockDot_small hD h (hY y) x).2]
  exact ha x y

theorem ofSize_cut (n : Nat) (x : Nat → V) : OfSize n (cut n x) := fun i hi => by simp [cut, show ¬ i < n by omega]

theorem cut_of {n : Nat} {x : Nat → V} (h : OfSize n x) : cut n x = x := by
  funext i
  by_cases hi : i < n
  · simp [cut, hi]
  · simp [cut, hi, h i (by omega)]

/-- the restriction as an operator -/
noncomputable def restrOp (K : Type) [Field K] [Module K V] (s : MH R) (l : Nat) : Module.End K (Nat → V) := by
  classical
  exact if l + 1 < s.mats.length then
    { toFun := fun x => cut (s.level (l + 1)).n (Pt (s.maps.getD l []) (s.level l).n x)
      map_add' := fun x y => by
        funext a
        by_cases ha : a < (s.level (l + 1)).n
        · simp only [cut, if_pos ha, Pi.add_apply, Pt, ← Finset.sum_add_distrib]
          exact Finset.sum_congr rfl fun i _ => by split <;> simp
        · simp [cut, ha]
      map_smul' := fun c x => by
        funext a
        by_cases ha : a < (s.level (l + 1)).n
        · simp only [cut, if_pos ha, Pi.smul_apply, Pt, Finset.smul_sum, RingHom.id_apply]
          exact Finset.sum_congr rfl fun i _ => by split <;> simp
        · simp [cut, ha] }
    else 0

/-- the prolongation as an operator -/
noncomputable def prolOp (K : Type) [Field K] [Module K V] (s : MH R) (l : Nat) : Module.End K (Nat → V) := by
  classical
  exact if l + 1 < s.mats.length then
    { toFun := fun x => cut (s.level l).n (P (s.maps.getD l []) x)
      map_add' := fun x y => by
        funext a
        by_cases ha : a < (s.level l).n
        · simp only [cut, if_pos ha, Pi.add_apply, P]
          split <;> simp
        · simp [cut, ha]
      map_smul' := fun c x => by
        funext a
        by_cases ha : a < (s.level l).n
        · simp only [cut, if_pos ha, Pi.smul_apply, P, RingHom.id_apply]
          split <;> simp
        · simp [cut, ha] }
    else 0

theorem restrOp_in {l : Nat} (hl : l + 1 < s.mats.length) (x : Nat → V) :
    restrOp K s l x = cut (s.level (l + 1)).n (Pt (s.maps.getD l []) (s.level l).n x) := by
  unfold restrOp; rw [if_pos hl]; rfl

theorem prolOp_in {l : Nat} (hl : l + 1 < s.mats.length) (x : Nat → V) :
    prolOp K s l x = cut (s.level l).n (P (s.maps.getD l []) x) := by
  unfold prolOp; rw [if_pos hl]; rfl

theorem restrOp_out {l : Nat} (hl : ¬ l + 1 < s.mats.length) (x : Nat → V) : restrOp K s l x = 0 := by
  unfold restrOp; rw [if_neg hl]; rfl

theorem prolOp_out {l : Nat} (hl : ¬ l + 1 < s.mats.length) (x : Nat → V) : prolOp K s l x = 0 := by
  unfold prolOp; rw [if_neg hl]; rfl

theorem ofSize_zero (n : Nat) : OfSize n (0 : Nat → V) := fun _ _ => rfl

theorem restrOp_size (l : Nat) (x : Nat → V) : OfSize (s.level (l + 1)).n (restrOp K s l x) := by
  by_cases hl : l + 1 < s.mats.length
  · rw [restrOp_in hl]; exact ofSize_cut _ _
  · rw [restrOp_out hl]; exact ofSize_zero _

theorem prolOp_size (l : Nat) (x : Nat → V) : OfSize (s.level l).n (prolOp K s l x) := by
  by_cases hl : l + 1 < s.mats.length
  · rw [prolOp_in hl]; exact ofSize_cut _ _
  · rw [prolOp_out hl]; exact ofSize_zero _

/-- the form as additive maps -/
def dotHom (hD : ScalarProd D) : V →+ V →+ K :=
  AddMonoidHom.mk' (fun u => AddMonoidHom.mk' (fun v => D u v) (fun v w => by rw [hD.symm, hD.add, hD.symm v, hD.symm w]))
    (fun u v => by ext w; exact hD.add u v w)

theorem transfer_adj (hD : ScalarProd D) (H : IsHierarchy A s) (l : Nat) :
    Adjoint (blockDot D A.n) (restrOp K s l) (prolOp K s l) := by
  have hBD := blockDot_scalarProd hD A.n
  intro x y
  rw [(blockDot_small hD (level_le H (l + 1)) (restrOp_size l x) y).1, (blockDot_small hD (level_le H l) (prolOp_size l y) x).2]
  by_cases hl : l + 1 < s.mats.length
  · have := C45_transpose (s.maps.getD l []) (s.level l).n (s.level (l + 1)).n (level_coarsening H hl).map_ok (dotHom hD) x y
    rw [restrOp_in hl, prolOp_in hl, blockDot_congr (x' := Pt (s.maps.getD l []) (s.level l).n x) (y' := y)
      (fun i hi => by simp [cut, hi]) (fun _ _ => rfl), blockDot_congr (x := x) (x' := x) (y' := P (s.maps.getD l []) y)
      (fun _ _ => rfl) (fun i hi => by simp [cut, hi])]
    exact this
  · rw [restrOp_out hl, prolOp_out hl, (blockDot_scalarProd hD _).zero, (blockDot_scalarProd hD _).symm, (blockDot_scalarProd hD _).zero]

theorem galerkin_level (act : R →+ V →+ V) (hact : ∀ a (c : K) x, act a (c • x) = c • act a x) (H : IsHierarchy A s) (l : Nat)
    (x : Nat → V) : matOp (fun b => act b) hact (s.level (l + 1)) x =
      restrOp K s l (matOp (fun b => act b) hact (s.level l) (prolOp K s l x)) := by
  by_cases hl : l + 1 < s.mats.length
  · have h := level_coarsening H hl
    rw [restrOp_in hl, prolOp_in hl]
    funext a
    by_cases ha : a < (s.level (l + 1)).n
    · simp only [matOp, LinearMap.coe_mk, AddHom.coe_mk, if_pos ha, cut]
      rw [apply_sum act _ h.wf.2 ha]
      have e2 : ∀ i, i < (s.level l).n → (if i < (s.level l).n then (s.level l).apply (fun b => act b) (fun i => if i < (s.level l).n then
          P (s.maps.getD l []) x i else 0) i else 0) = ∑ j ∈ Finset.range (s.level l).m, act ((s.level l).entry i j) (P (s.maps.getD l []) x j) := by
        intro i hi
        rw [if_pos hi, apply_sum act _ h.wf.1 hi]
        refine Finset.sum_congr rfl fun j hj => ?_
        rw [if_pos (by have := h.square.1; have := Finset.mem_range.mp hj; omega)]
      have e3 := C44_is_product act (s.maps.getD l []) (s.level l) h.square.1 (s.level (l + 1)).n h.map_ok x a
      refine (Finset.sum_congr (by rw [h.square.2]) fun b hb => ?_).trans (e3.trans ?_)
      · rw [h.entries a ha b (by simpa using hb)]
      · unfold Pt
        refine Finset.sum_congr rfl fun i hi => ?_
        exact congrArg (fun z : V => if (s.maps.getD l [])[i]? = some (Agg.id a) then z else 0) (e2 i (Finset.mem_range.mp hi)).symm
    · simp [matOp, ha, cut]
  · rw [restrOp_out hl, level_none (by omega)]
    funext a
    simp [matOp]

/-- the coarse solver as an operator -/
noncomputable def solveOp (hD : ScalarProd D) (act : R → V →+ V) (hact : ∀ a (c : K) x, act a (c • x) = c • act a x) (L : SpMat R)
    (hP : L.PosDef D act) (cs : (Nat → V) → (Nat → V) → (Nat → V) × (Nat → V) × Bool) (hc : ExactSolver act L cs) :
    Module.End K (Nat → V) where
  toFun d := (cs 0 (cut L.n d)).1
  map_add' x y := by
    obtain ⟨h1, h2, _⟩ := hc _ (ofSize_cut L.n x)
    obtain ⟨h3, h4, _⟩ := hc _ (ofSize_cut L.n y)
    obtain ⟨h5, h6, _⟩ := hc _ (ofSize_cut L.n (x + y))
    refine posdef_inj hD act hact L hP h5 (fun i hi => by rw [Pi.add_apply, h1 i hi, h3 i hi, add_zero]) (fun i hi => ?_)
    rw [h6 i hi, apply_add, Pi.add_apply, h2 i hi, h4 i hi]
    simp [cut, hi]
  map_smul' c x := by
    obtain ⟨h1, h2, _⟩ := hc _ (ofSize_cut L.n x)
    obtain ⟨h5, h6, _⟩ := hc _ (ofSize_cut L.n (c • x))
    refine posdef_inj hD act hact L hP h5 (fun i hi => by simp [h1 i hi]) (fun i hi => ?_)
    rw [h6 i hi, RingHom.id_apply, apply_smul act hact, Pi.smul_apply, h2 i hi]
    simp [cut, hi]

/-- the vectors with `n` blocks -/
def sized (K : Type) [Field K] [Module K V] (n : Nat) : Submodule K (Nat → V) where
  carrier := {x | OfSize n x}
  add_mem' := fun {x y} hx hy i hi => by rw [Pi.add_apply, hx i hi, hy i hi, add_zero]
  zero_mem' := fun _ _ => rfl
  smul_mem' := fun c x hx i hi => by rw [Pi.smul_apply, hx i hi, smul_zero]

theorem amg_spd [FiniteDimensional K V] (hD : ScalarProd D) (act : R →+ V →+ V) (hact : ∀ a (c : K) x, act a (c • x) = c • act a x)
    (H : IsHierarchy A s) (hA : A.Symmetric D (fun b => act b)) (hP : A.PosDef D (fun b => act b)) (sm : Smoother R V)
    (hsm : ∀ l, SpdSmoother D (fun b => act b) (s.level l) sm) (cs : (Nat → V) → (Nat → V) → (Nat → V) × (Nat → V) × Bool)
    (hc : ExactSolver (fun b => act b) (s.level (s.mats.length - 1)) cs) (damp : K) (hd : 0 ≤ damp ∧ damp ≤ 1) (steps gamma : Nat) :
    ∃ (W : Nat → Submodule K (Nat → V)) (A' S1 S2 Rs Pr : Nat → Module.End K (Nat → V)) (C : Module.End K (Nat → V)),
      SpdHierarchy (blockDot D A.n) (amgOf (fun b => act b) sm s cs damp steps gamma) W A' S1 S2 Rs Pr C ∧
      Adjoint (blockDot D A.n) C C ∧ (∀ x, x ∈ W 0 ↔ OfSize A.n x) ∧ (∀ x, A' 0 x = levelMul (fun b => act b) A x) ∧
      (∀ d, OfSize (s.level (s.mats.length - 1)).n (C d)) ∧ ∀ l x, x ∈ W l ↔ OfSize (s.level l).n x := by
  choose S1 S2 h1 h2 h3 h4 h5 using hsm
  have hsp := level_spd hD act H hA hP
  let cst := s.mats.length - 1
  let C := solveOp hD (fun b => act b) hact (s.level cst) (hsp cst).2 cs hc
  have mcut : ∀ l x, OfSize (s.level l).n (matOp (K := K) (fun b => act b) hact (s.level l) x) := fun l x i hi => by
    simp [matOp, show ¬ i < (s.level l).n by omega]
  have emul : ∀ l x, levelMul (fun b => act b) (s.level l) x = matOp (K := K) (fun b => act b) hact (s.level l) x := fun l x => rfl
  have eform : ∀ l x y, blockDot D (s.level l).n (matOp (K := K) (fun b => act b) hact (s.level l) x) y =
      blockDot D (s.level l).n ((s.level l).apply (fun b => act b) x) y := fun l x y =>
    blockDot_congr (fun i hi => by simp [matOp, hi]) (fun _ _ => rfl)
  have hC1 : ∀ d, OfSize (s.level cst).n (C d) := fun d => (hc _ (ofSize_cut _ d)).1
  have hC2 : ∀ d, matOp (K := K) (fun b => act b) hact (s.level cst) (C d) = cut (s.level cst).n d := by
    intro d
    obtain ⟨_, q, _⟩ := hc _ (ofSize_cut (s.level cst).n d)
    funext i
    by_cases hi : i < (s.level cst).n
    · simp only [matOp, LinearMap.coe_mk, AddHom.coe_mk, if_pos hi]
      exact q i hi
    · simp [matOp, cut, hi]
  refine ⟨fun l => sized K (s.level l).n,
    fun l => matOp (fun b => act b) hact (s.level l), S1, S2, restrOp K s, prolOp K s, C, ?_, ?_, ?_, ?_, hC1, fun _ _ => Iff.rfl⟩
  · refine
    { mat := fun l => rfl
      pre := fun l => funext fun d => by show okOr 0 _ = _; rw [h1]; rfl
      post := fun l => funext fun d => by show okOr 0 _ = _; rw [h2]; rfl
      restr := fun l => funext fun x => ?_
      prol := fun l => funext fun x => ?_
      solve := fun b => rfl
      steps := rfl
      A_symm := fun l => adjoint_lift hD (level_le H l) (mcut l) (mcut l) (matOp_symm (fun b => act b) hact (s.level l) (hsp l).1)
      smoothers := fun l => adjoint_lift hD (level_le H l) (fun d => (h3 l d).1) (fun d => (h3 l d).2) (h4 l)
      transfer := transfer_adj hD H
      mem_A := fun l x _ => mcut l x
      mem_S1 := fun l x _ => (h3 l x).1
      mem_S2 := fun l x _ => (h3 l x).2
      mem_R := fun l x _ => restrOp_size l x
      mem_P := fun l x _ => prolOp_size l x
      pos := fun l x hx hne => ?_
      regular := fun l r hr => ?_
      galerkin := fun l x _ => galerkin_level act hact H l x
      coarse := fun r hr => ⟨hC1 r, (hC2 r).trans (cut_of hr)⟩
      smoothing := fun l x hx hne => ?_
      damp := hd }
    · show ofArr (okOr [] (levelRestrict s l x)) = _
      by_cases hl : l + 1 < s.mats.length
      · obtain ⟨c, e, h⟩ := restrict_level H hl x
        rw [e, restrOp_in hl]; exact h
      · rw [restrict_beyond H hl, restrOp_out hl]
    · show ofArr (okOr ([], []) (levelProlong s l x)).2 = _
      by_cases hl : l + 1 < s.mats.length
      · obtain ⟨c, e, h⟩ := prolong_level H hl x
        rw [e, prolOp_in hl]; exact h
      · rw [prolong_beyond H hl, prolOp_out hl]
    · rw [(blockDot_small hD (level_le H l) (mcut l x) x).1, eform]
      apply (hsp l).2
      by_contra hcon
      push Not at hcon
      apply hne
      funext i
      by_cases hi : i < (s.level l).n
      · exact hcon i hi
      · exact hx i (by omega)
    · obtain ⟨z, hz, e⟩ := posdef_surj hD (fun b => act b) hact (s.level l) (hsp l).2 r
      refine ⟨z, hz, ?_⟩
      funext i
      by_cases hi : i < (s.level l).n
      · simp only [matOp, LinearMap.coe_mk, AddHom.coe_mk, if_pos hi]
        exact e i hi
      · simp only [matOp, LinearMap.coe_mk, AddHom.coe_mk, if_neg hi]
        exact (hr i (by omega)).symm
    · have := h5 l x hx hne
      rw [emul l x] at this
      rw [(blockDot_small hD (level_le H l) (mcut l _) _).1, (blockDot_small hD (level_le H l) (mcut l _) _).1, eform, eform]
      exact this
  · apply adjoint_lift hD (level_le H cst) hC1 hC1
    intro x y
    have hs := matOp_symm (fun b => act b) hact (s.level cst) (hsp cst).1
    have e1 : blockDot D (s.level cst).n (C x) y = blockDot D (s.level cst).n (C x) (matOp (K := K) (fun b => act b) hact (s.level cst) (C y)) := by
      rw [hC2]
      exact blockDot_congr (fun _ _ => rfl) (fun i hi => by simp [cut, hi])
    rw [e1, ← hs, hC2]
    exact blockDot_congr (fun i hi => by simp [cut, hi]) (fun _ _ => rfl)
  · intro x
    show OfSize (s.level 0).n x ↔ _
    rw [level_zero H]
  · intro x
    show _ = levelMul _ A x
    rw [← emul, level_zero H]

end Amg
end Istl
