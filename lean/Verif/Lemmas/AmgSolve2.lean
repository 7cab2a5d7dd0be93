import Mathlib.LinearAlgebra.FiniteDimensional.Lemmas
import Verif.Lemmas.AmgSolve

/-! The hierarchy that `MatrixHierarchy::build` makes of a symmetric positive definite matrix, as a `SpdHierarchy`. -/

namespace Istl
namespace Amg
open Prec Gsetc
variable {R K V : Type}

section general
variable [Ring R] [Field K] [LinearOrder K] [IsStrictOrderedRing K] [AddCommGroup V] [Module R V] [Module K V] {D : V → V → K}

theorem posdef_inj (hD : ScalarProd D) (act : R → V →+ V) (hact : ∀ a (c : K) x, act a (c • x) = c • act a x) (A : SpMat R)
    (hP : A.PosDef D act) {x y : Nat → V} (hx : OfSize A.n x) (hy : OfSize A.n y) (h : ∀ i < A.n, A.apply act x i = A.apply act y i) : x = y := by
  by_contra hne
  have h0 : ∃ i, i < A.n ∧ (x - y) i ≠ 0 := by
    by_contra hc
    push Not at hc
    apply hne
    funext i
    by_cases hi : i < A.n
    · exact sub_eq_zero.mp (hc i hi)
    · rw [hx i (by omega), hy i (by omega)]
  have hp := hP _ h0
  have e : ∀ i, i < A.n → A.apply act (x - y) i = (0 : Nat → V) i := by
    intro i hi
    have := congrFun (map_sub (matOp (K := K) act hact A) x y) i
    simp only [matOp, LinearMap.coe_mk, AddHom.coe_mk, if_pos hi, Pi.sub_apply, h i hi, sub_self] at this
    simpa using this
  rw [blockDot_congr e (fun i _ => rfl), (blockDot_scalarProd hD A.n).zero] at hp
  exact lt_irrefl _ hp

/-- extension by zero and its inverse -/
def extend {n : Nat} (x : Fin n → V) : Nat → V := fun i => if h : i < n then x ⟨i, h⟩ else 0

theorem extend_size {n : Nat} (x : Fin n → V) : OfSize n (extend x) := fun i hi => by simp [extend, show ¬ i < n by omega]

theorem extend_of {n : Nat} {x : Nat → V} (h : OfSize n x) : extend (fun i : Fin n => x i) = x := by
  funext i
  by_cases hi : i < n
  · simp [extend, hi]
  · simp [extend, hi, h i (by omega)]

theorem extend_add {n : Nat} (x y : Fin n → V) : extend (x + y) = extend x + extend y := by
  funext i; by_cases hi : i < n <;> simp [extend, hi]

theorem extend_smul {n : Nat} (c : K) (x : Fin n → V) : extend (c • x) = c • extend x := by
  funext i; by_cases hi : i < n <;> simp [extend, hi]

/-- the matrix on vectors with exactly `n` blocks -/
noncomputable def finOp (act : R → V →+ V) (hact : ∀ a (c : K) x, act a (c • x) = c • act a x) (A : SpMat R) : (Fin A.n → V) →ₗ[K] (Fin A.n → V) where
  toFun x := fun i => A.apply act (extend x) i
  map_add' x y := by funext i; rw [extend_add, apply_add]; rfl
  map_smul' c x := by funext i; rw [extend_smul, apply_smul act hact]; rfl

theorem posdef_surj [FiniteDimensional K V] (hD : ScalarProd D) (act : R → V →+ V) (hact : ∀ a (c : K) x, act a (c • x) = c • act a x)
    (A : SpMat R) (hP : A.PosDef D act) (r : Nat → V) : ∃ z, OfSize A.n z ∧ ∀ i < A.n, A.apply act z i = r i := by
  have inj : Function.Injective (finOp act hact A) := by
    intro x y h
    have := posdef_inj hD act hact A hP (extend_size x) (extend_size y) (fun i hi => congrFun h ⟨i, hi⟩)
    funext i
    have := congrFun this i
    simpa [extend] using this
  obtain ⟨z, hz⟩ := (LinearMap.injective_iff_surjective.mp inj) (fun i => r i)
  exact ⟨extend z, extend_size z, fun i hi => congrFun hz ⟨i, hi⟩⟩

theorem posdef_diag [FiniteDimensional K V] [Nontrivial V] (hD : ScalarProd D) (act : R →+ V →+ V)
    (hact : ∀ a (c : K) x, act a (c • x) = c • act a x)
    (A : SpMat R) (hA : A.WF) (hsq : A.n = A.m) (hP : A.PosDef D (fun b => act b)) :
    A.Sorted ∧ A.HasDiag ∧ A.DiagInvertible (fun b => act b) := by
  refine ⟨fun i hi => (hA i hi).1, ?_, ?_⟩
  · intro i hi
    by_contra hno
    obtain ⟨u, hu⟩ := exists_ne (0 : V)
    have h1 := diag_posdef hD act hA hsq hP hi u hu
    have h2 : A.entry i i = 0 := Row.val_of_not_mem fun b hb => hno ⟨b, hb⟩
    rw [h2] at h1
    simp only [map_zero, AddMonoidHom.zero_apply] at h1
    rw [hD.zero] at h1
    exact absurd h1 (lt_irrefl _)
  · intro i hi a ha
    have pos := fun v hv => diag_pos hD (fun b => act b) A hP hi (hA i hi).1 ha v hv
    let T : V →ₗ[K] V := { toFun := act a, map_add' := map_add _, map_smul' := hact a }
    have inj : Function.Injective T := by
      intro x y h
      by_contra hne
      have hp := pos (x - y) (sub_ne_zero.2 hne)
      have : act a (x - y) = 0 := by rw [map_sub]; exact sub_eq_zero.2 h
      rw [this, hD.zero] at hp
      exact lt_irrefl _ hp
    exact ⟨inj, LinearMap.injective_iff_surjective.mp inj⟩

end general

section levels
variable [Ring R] {A : SpMat R} {s : MH R}

theorem level_some {l : Nat} (hl : l < s.mats.length) : s.mats[l]? = some (s.level l) := by
  unfold MH.level
  rw [List.getD_eq_getElem?_getD, List.getElem?_eq_getElem hl]
  rfl

theorem level_none {l : Nat} (hl : s.mats.length ≤ l) : s.level l = ⟨0, 0, fun _ => []⟩ := by
  unfold MH.level
  rw [List.getD_eq_getElem?_getD, List.getElem?_eq_none hl]
  rfl

theorem level_zero (H : IsHierarchy A s) : s.level 0 = A := by
  unfold MH.level
  rw [List.getD_eq_getElem?_getD, H.finest]
  rfl

theorem level_coarsening (H : IsHierarchy A s) {l : Nat} (hl : l + 1 < s.mats.length) :
    IsCoarsening (s.level l) (s.maps.getD l []) (s.level (l + 1)) := by
  obtain ⟨fine, h1, h2⟩ := hier_step H (level_some hl)
  rw [level_some (by omega)] at h1
  injection h1 with h1
  rw [h1]; exact h2

theorem coarsening_le {fine coarse : SpMat R} {map : List Agg} (h : IsCoarsening fine map coarse) : coarse.n ≤ fine.n := by
  classical
  choose f hf using fun a : Fin coarse.n => h.onto a a.2
  have inj : Function.Injective (fun a : Fin coarse.n => (⟨f a, (hf a).1⟩ : Fin fine.n)) := by
    intro a b hab
    have e : f a = f b := by simpa using hab
    have ha := (hf a).2
    rw [e, (hf b).2] at ha
    injection ha with ha; injection ha with ha
    exact Fin.ext ha.symm
  simpa using Fintype.card_le_of_injective _ inj

theorem level_le (H : IsHierarchy A s) : ∀ l, (s.level l).n ≤ A.n := by
  intro l
  induction l with
  | zero => rw [level_zero H]
  | succ l ih =>
    by_cases hl : l + 1 < s.mats.length
    · exact le_trans (coarsening_le (level_coarsening H hl)) ih
    · rw [level_none (by omega)]; exact Nat.zero_le _

theorem level_wf (H : IsHierarchy A s) (hA : A.WF) (hsq : A.n = A.m) (l : Nat) : (s.level l).WF ∧ (s.level l).n = (s.level l).m := by
  cases l with
  | zero => rw [level_zero H]; exact ⟨hA, hsq⟩
  | succ l =>
    by_cases hl : l + 1 < s.mats.length
    · have := level_coarsening H hl
      exact ⟨this.wf.2, this.square.2.symm⟩
    · rw [level_none (by omega)]
      exact ⟨fun i hi => absurd hi (Nat.not_lt_zero i), rfl⟩

variable [Field K] [LinearOrder K] [IsStrictOrderedRing K] [AddCommGroup V] [Module R V] [Module K V] {D : V → V → K}

theorem level_spd (hD : ScalarProd D) (act : R →+ V →+ V) (H : IsHierarchy A s) (hA : A.Symmetric D (fun b => act b))
    (hP : A.PosDef D (fun b => act b)) (l : Nat) :
    (s.level l).Symmetric D (fun b => act b) ∧ (s.level l).PosDef D (fun b => act b) := by
  by_cases hl : l < s.mats.length
  · exact ⟨(C59_spd hD act H).1 hA l _ (level_some hl), (C59_spd hD act H).2 hP l _ (level_some hl)⟩
  · rw [level_none (by omega)]
    refine ⟨fun x y => by simp [blockDot], ?_⟩
    rintro x ⟨i, hi, _⟩
    exact absurd hi (Nat.not_lt_zero i)

theorem vecIs_arr (n : Nat) (x : Nat → V) : VecIs (toArr n x) n x := by
  refine ⟨by simp [toArr], fun i hi => rd_ok.mpr ?_⟩
  simp [toArr, hi]

theorem vecIs_zero (n : Nat) : VecIs (List.replicate n (0 : V)) n (fun _ => 0) := by
  refine ⟨by simp, fun i hi => rd_ok.mpr ?_⟩
  simp [hi]

theorem ofArr_of {l : List V} {n : Nat} {x : Nat → V} (h : VecIs l n x) : ofArr l = cut n x := by
  funext i
  unfold ofArr cut
  by_cases hi : i < n
  · rw [if_pos hi, List.getD_eq_getElem?_getD, rd_ok.mp (h.2 i hi)]; rfl
  · rw [if_neg hi, List.getD_eq_getElem?_getD, List.getElem?_eq_none (by rw [h.1]; omega)]; rfl

theorem restrict_level (H : IsHierarchy A s) {l : Nat} (hl : l + 1 < s.mats.length) (x : Nat → V) :
    ∃ c, levelRestrict s l x = .ok c ∧ ofArr c = cut (s.level (l + 1)).n (Pt (s.maps.getD l []) (s.level l).n x) := by
  obtain ⟨c, e, h⟩ := C45_restrict (s.maps.getD l []) _ _ (level_coarsening H hl).map_ok (List.replicate (s.level (l + 1)).n 0)
    (toArr (s.level l).n x) x (by simp) (vecIs_arr _ x)
  exact ⟨c, e, ofArr_of h⟩

theorem prolong_level (H : IsHierarchy A s) {l : Nat} (hl : l + 1 < s.mats.length) (c : Nat → V) :
    ∃ f, levelProlong s l c = .ok f ∧ ofArr f.2 = cut (s.level l).n (P (s.maps.getD l []) c) := by
  obtain ⟨c', f, e, _, h, _⟩ := C45_prolongate (K := Nat) (s.maps.getD l []) _ _ (level_coarsening H hl).map_ok
    (toArr (s.level (l + 1)).n c) (List.replicate (s.level l).n 0) c (fun _ => 0) 1 (vecIs_arr _ c) (vecIs_zero _)
  refine ⟨_, e, ?_⟩
  rw [ofArr_of h]
  funext i
  simp [cut]

theorem forRange_nil {α : Type} (n : Nat) (f : Nat → α → Res α) (a : α) (h : ∀ a, f 0 a = .ub) : n = 0 ∨ forRangeM n f a = .ub := by
  cases n with
  | zero => left; rfl
  | succ n =>
    right
    induction n generalizing a with
    | zero => rw [forRangeM_succ]; exact h a
    | succ n ih => rw [forRangeM_succ, ih]; rfl

theorem map_beyond (H : IsHierarchy A s) {l : Nat} (hl : ¬ l + 1 < s.mats.length) : s.maps.getD l [] = [] := by
  by_cases h : l < s.maps.length
  · have : l = s.maps.length - 1 := by have := H.count; omega
    have e := H.last_map
    rw [List.getLast?_eq_getElem?, ← this] at e
    rw [List.getD_eq_getElem?_getD, e]; rfl
  · rw [List.getD_eq_getElem?_getD, List.getElem?_eq_none (by omega)]; rfl

theorem restrict_beyond (H : IsHierarchy A s) {l : Nat} (hl : ¬ l + 1 < s.mats.length) (x : Nat → V) :
    ofArr (okOr [] (levelRestrict s l x)) = 0 := by
  unfold levelRestrict
  rw [map_beyond H hl, level_none (s := s) (l := l + 1) (by omega)]
  unfold Amg.restrict
  rcases forRange_nil (toArr (s.level l).n x).length (fun i c => restrictStep [] (toArr (s.level l).n x) i c)
    (List.map (fun _ => (0 : V)) (List.replicate 0 0)) (fun a => rfl) with h | h
  · rw [h]; rfl
  · erw [h]; rfl

theorem prolong_beyond (H : IsHierarchy A s) {l : Nat} (hl : ¬ l + 1 < s.mats.length) (c : Nat → V) :
    ofArr (okOr ([], []) (levelProlong s l c)).2 = 0 := by
  unfold levelProlong prolongate
  rw [map_beyond H hl]
  rcases forRange_nil (List.replicate (s.level l).n (0 : V)).length (fun i f => prolongStep []
    (dampAll (1 : Nat) (toArr (s.level (l + 1)).n c)) i f) (List.replicate (s.level l).n (0 : V)) (fun a => rfl) with h | h
  · rw [List.length_replicate] at h
    simp only [h, List.replicate_zero, List.length_nil]
    rfl
  · simp only [h]; rfl

end levels
end Amg
end Istl
