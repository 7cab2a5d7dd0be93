import Verif.Lemmas.AmgHierarchy
import Verif.Lemmas.SorEnergy
import Verif.Props.C45
import Mathlib.Algebra.Order.BigOperators.Ring.Finset
import Mathlib.Tactic.Ring
import Mathlib.Tactic.Linarith

/-! Lemmas for C59: consequences of being a Galerkin hierarchy -/

namespace Istl
namespace Amg
open Finset
variable {B : Type}

theorem apply_sum {X : Type} [AddCommGroup B] [AddCommGroup X] (act : B →+ X →+ X) (A : SpMat B) (hA : A.WF) {i : Nat} (hi : i < A.n)
    (x : Nat → X) : A.apply (fun b => act b) x i = ∑ j ∈ range A.m, act (A.entry i j) (x j) := by
  have := Row.sum_val (A.row i) (hA i hi).1 A.m (hA i hi).2 (fun j b => act b (x j)) (fun j => by simp)
  unfold SpMat.apply SpMat.partSum SpMat.entry
  rw [this]
  simp

/-- `(A_c x)^T y = (A P x)^T (P y)` -/
theorem coarse_form {K V : Type} [CommRing K] [AddCommGroup V] [Module K V] [AddCommGroup B] {D : V → V → K} (hD : ScalarProd D)
    (act : B →+ V →+ V) {fine coarse : SpMat B} {map : List Agg} (h : IsCoarsening fine map coarse) (x y : Nat → V) :
    blockDot D coarse.n (coarse.apply (fun b => act b) x) y =
      blockDot D fine.n (fine.apply (fun b => act b) (P map x)) (P map y) := by
  have e1 : ∀ a, a < coarse.n → coarse.apply (fun b => act b) x a =
      Pt map fine.n (fun i => ∑ j ∈ range fine.m, act (fine.entry i j) (P map x j)) a := by
    intro a ha
    rw [apply_sum act coarse h.wf.2 ha, ← C44_is_product act map fine h.square.1 coarse.n h.map_ok, h.square.2]
    exact Finset.sum_congr rfl fun b hb => by rw [h.entries a ha b (Finset.mem_range.mp hb)]
  rw [blockDot_congr e1 (fun i _ => rfl)]
  let dot : V →+ V →+ K := AddMonoidHom.mk' (fun u => AddMonoidHom.mk' (fun v => D u v) (fun v w => by rw [hD.symm, hD.add, hD.symm v, hD.symm w]))
    (fun u v => by ext w; exact hD.add u v w)
  have := C45_transpose map fine.n coarse.n h.map_ok dot (fun i => ∑ j ∈ range fine.m, act (fine.entry i j) (P map x j)) y
  rw [blockDot_congr (x' := fun i => ∑ j ∈ range fine.m, act (fine.entry i j) (P map x j))
    (fun i hi => apply_sum act fine h.wf.1 hi (P map x)) (fun i _ => rfl)]
  exact this

theorem coarse_symmetric {K V : Type} [CommRing K] [AddCommGroup V] [Module K V] [AddCommGroup B] {D : V → V → K} (hD : ScalarProd D)
    (act : B →+ V →+ V) {fine coarse : SpMat B} {map : List Agg} (h : IsCoarsening fine map coarse)
    (hs : fine.Symmetric D (fun b => act b)) : coarse.Symmetric D (fun b => act b) := by
  intro x y
  rw [coarse_form hD act h, hs, (blockDot_scalarProd hD _).symm, ← coarse_form hD act h, (blockDot_scalarProd hD _).symm]

theorem coarse_posdef {K V : Type} [CommRing K] [LinearOrder K] [AddCommGroup V] [Module K V] [AddCommGroup B] {D : V → V → K}
    (hD : ScalarProd D) (act : B →+ V →+ V) {fine coarse : SpMat B} {map : List Agg} (h : IsCoarsening fine map coarse)
    (hp : fine.PosDef D (fun b => act b)) : coarse.PosDef D (fun b => act b) := by
  rintro x ⟨a, ha, hx⟩
  rw [coarse_form hD act h]
  obtain ⟨i, hi, hm⟩ := h.onto a ha
  exact hp _ ⟨i, hi, by simpa [P, hm] using hx⟩

/-- nesting of two maps -/
theorem cluster_succ (maps : List (List Agg)) (l i b : Nat) :
    cluster maps (l + 1) i = some b ↔ ∃ a, cluster maps l i = some a ∧ (maps.getD l [])[a]? = some (.id b) := by
  rw [cluster]
  cases h : cluster maps l i with
  | none => simp
  | some a =>
    simp only [Option.some.injEq, exists_eq_left']
    cases h' : (maps.getD l [])[a]? with
    | none => simp
    | some v => cases v <;> simp

theorem hier_mat [AddCommGroup B] {A : SpMat B} {s : MH B} (H : IsHierarchy A s) {l : Nat} {C : SpMat B} (hl : s.mats[l]? = some C) :
    l < s.mats.length := by
  by_contra h
  rw [List.getElem?_eq_none (by omega)] at hl
  simp at hl

theorem hier_step [AddCommGroup B] {A : SpMat B} {s : MH B} (H : IsHierarchy A s) {l : Nat} {C : SpMat B} (hl : s.mats[l + 1]? = some C) :
    ∃ fine, s.mats[l]? = some fine ∧ IsCoarsening fine (s.maps.getD l []) C := by
  obtain ⟨fine, map, coarse, h1, h2, h3, h4⟩ := H.step l (hier_mat H hl)
  rw [hl] at h3
  injection h3 with h3
  subst h3
  refine ⟨fine, h1, ?_⟩
  rw [List.getD_eq_getElem?_getD, h2]
  exact h4

theorem cluster_lt [AddCommGroup B] {A : SpMat B} {s : MH B} (H : IsHierarchy A s) : ∀ (l : Nat) (C : SpMat B), s.mats[l]? = some C →
    ∀ i < A.n, ∀ a, cluster s.maps l i = some a → a < C.n := by
  intro l
  cases l with
  | zero =>
    intro C hC i hi a ha
    rw [H.finest] at hC
    injection hC with hC; injection ha with ha
    subst hC; omega
  | succ l =>
    intro C hC i hi a ha
    obtain ⟨fine, h1, h2⟩ := hier_step H hC
    obtain ⟨p, hp, hm⟩ := (cluster_succ _ _ _ _).mp ha
    have : p < fine.n := by
      by_contra hc
      rw [List.getElem?_eq_none (by rw [h2.map_ok.1]; omega)] at hm
      simp at hm
    rcases h2.map_ok.2 p this with h | ⟨b, hb, h⟩
    · rw [hm] at h; simp at h
    · rw [hm] at h
      have : a = b := by simpa using h
      omega

/-- The product is associative: two coarsenings in a row add up the entries between the aggregates of aggregates. -/
theorem sum_clusters [AddCommGroup B] (n k : Nat) (f : Nat → Option Nat) (hf : ∀ i < n, ∀ a, f i = some a → a < k) (g : Nat → Prop) [DecidablePred g]
    (F : Nat → B) : ∑ p ∈ range k, (if g p then ∑ i ∈ range n, (if f i = some p then F i else 0) else 0) =
      ∑ i ∈ range n, (if ∃ p, f i = some p ∧ g p then F i else 0) := by
  classical
  have : ∀ p, (if g p then ∑ i ∈ range n, (if f i = some p then F i else 0) else 0) =
      ∑ i ∈ range n, (if f i = some p ∧ g p then F i else 0) := by
    intro p
    by_cases h : g p
    · simp [h]
    · simp [h]
  rw [Finset.sum_congr rfl fun p _ => this p, Finset.sum_comm]
  apply Finset.sum_congr rfl
  intro i hi
  cases h : f i with
  | none => simp
  | some q =>
    have hq := hf i (Finset.mem_range.mp hi) q h
    rw [Finset.sum_eq_single q]
    · simp
    · intro b _ hb
      rw [if_neg]
      rintro ⟨h1, _⟩
      exact hb (Option.some.inj h1).symm
    · intro hn; exact absurd (Finset.mem_range.mpr hq) hn

theorem composite_entry [AddCommGroup B] {A : SpMat B} {s : MH B} (H : IsHierarchy A s) :
    ∀ (l : Nat) (C : SpMat B), s.mats[l]? = some C → ∀ a < C.n, ∀ b < C.n, C.entry a b =
      ∑ i ∈ range A.n, ∑ j ∈ range A.n,
        if cluster s.maps l i = some a ∧ cluster s.maps l j = some b then A.entry i j else 0 := by
  classical
  intro l
  induction l with
  | zero =>
    intro C hC a ha b hb
    rw [H.finest] at hC
    injection hC with hC
    subst hC
    simp only [cluster, Option.some.injEq]
    rw [Finset.sum_eq_single a, Finset.sum_eq_single b]
    · simp
    · intro j _ hj; simp [hj]
    · intro h; exact absurd (Finset.mem_range.mpr hb) h
    · intro i _ hi; simp [hi]
    · intro h; exact absurd (Finset.mem_range.mpr ha) h
  | succ l ih =>
    intro C hC a ha b hb
    obtain ⟨fine, h1, h2⟩ := hier_step H hC
    rw [h2.entries a ha b hb, PtAP, h2.square.1]
    have hlt := cluster_lt H l fine h1
    generalize hm : s.maps.getD l [] = map at *
    have e1 : ∀ p ∈ range fine.n, (∑ q ∈ range fine.n, if map[p]? = some (.id a) ∧ map[q]? = some (.id b) then fine.entry p q else 0) =
        if map[p]? = some (.id a) then ∑ i ∈ range A.n, (if cluster s.maps l i = some p then
          ∑ j ∈ range A.n, (if ∃ q, cluster s.maps l j = some q ∧ map[q]? = some (.id b) then A.entry i j else 0) else 0) else 0 := by
      intro p hp
      by_cases hpa : map[p]? = some (.id a)
      · rw [if_pos hpa]
        have e2 : ∀ q ∈ range fine.n, (if map[p]? = some (.id a) ∧ map[q]? = some (.id b) then fine.entry p q else 0) =
            if map[q]? = some (.id b) then ∑ j ∈ range A.n, (if cluster s.maps l j = some q then
              (∑ i ∈ range A.n, if cluster s.maps l i = some p then A.entry i j else 0) else 0) else 0 := by
          intro q hq
          by_cases hqb : map[q]? = some (.id b)
          · rw [if_pos ⟨hpa, hqb⟩, if_pos hqb, ih fine h1 p (Finset.mem_range.mp hp) q (Finset.mem_range.mp hq), Finset.sum_comm]
            apply Finset.sum_congr rfl
            intro j _
            by_cases hj : cluster s.maps l j = some q
            · simp [hj]
            · simp [hj]
          · rw [if_neg (fun h => hqb h.2), if_neg hqb]
        rw [Finset.sum_congr rfl e2, sum_clusters A.n fine.n (cluster s.maps l) hlt (fun q => map[q]? = some (.id b))]
        have : ∀ j ∈ range A.n, (if ∃ q, cluster s.maps l j = some q ∧ map[q]? = some (.id b) then
            ∑ i ∈ range A.n, (if cluster s.maps l i = some p then A.entry i j else 0) else 0) =
            ∑ i ∈ range A.n, (if cluster s.maps l i = some p then
              (if ∃ q, cluster s.maps l j = some q ∧ map[q]? = some (.id b) then A.entry i j else 0) else 0) := by
          intro j _
          by_cases h : ∃ q, cluster s.maps l j = some q ∧ map[q]? = some (.id b)
          · simp [h]
          · simp [h]
        rw [Finset.sum_congr rfl this, Finset.sum_comm]
        apply Finset.sum_congr rfl
        intro i _
        by_cases hi : cluster s.maps l i = some p
        · simp [hi]
        · simp [hi]
      · rw [if_neg hpa]
        exact Finset.sum_eq_zero fun q _ => if_neg fun h => hpa h.1
    rw [Finset.sum_congr rfl e1, sum_clusters A.n fine.n (cluster s.maps l) hlt (fun p => map[p]? = some (.id a))]
    apply Finset.sum_congr rfl
    intro i _
    have hcs : ∀ i b, cluster s.maps (l + 1) i = some b ↔ ∃ q, cluster s.maps l i = some q ∧ map[q]? = some (.id b) := by
      intro i b; rw [cluster_succ, hm]
    by_cases hi : ∃ p, cluster s.maps l i = some p ∧ map[p]? = some (.id a)
    · rw [if_pos hi]
      apply Finset.sum_congr rfl
      intro j _
      by_cases hj : ∃ q, cluster s.maps l j = some q ∧ map[q]? = some (.id b)
      · rw [if_pos hj, if_pos ⟨(hcs i a).mpr hi, (hcs j b).mpr hj⟩]
      · rw [if_neg hj, if_neg fun h => hj ((hcs j b).mp h.2)]
    · rw [if_neg hi]
      exact (Finset.sum_eq_zero fun j _ => if_neg fun h => hi ((hcs i a).mp h.1)).symm

theorem composite_pattern [AddCommGroup B] {A : SpMat B} {s : MH B} (H : IsHierarchy A s) :
    ∀ (l : Nat) (C : SpMat B), s.mats[l]? = some C → ∀ a < C.n, ∀ b, (C.Has a b ∨ b = a) ↔
      (b = a ∨ ∃ i j, A.Has i j ∧ cluster s.maps l i = some a ∧ cluster s.maps l j = some b) := by
  intro l
  induction l with
  | zero =>
    intro C hC a ha b
    rw [H.finest] at hC
    injection hC with hC
    subst hC
    simp only [cluster, Option.some.injEq]
    constructor
    · rintro (h | h)
      · exact Or.inr ⟨a, b, h, rfl, rfl⟩
      · exact Or.inl h
    · rintro (h | ⟨i, j, h, rfl, rfl⟩)
      · exact Or.inr h
      · exact Or.inl h
  | succ l ih =>
    intro C hC a ha b
    obtain ⟨fine, h1, h2⟩ := hier_step H hC
    have hlt := cluster_lt H l fine h1
    rw [h2.pattern a ha b]
    constructor
    · rintro ((h | ⟨p, q, h, hp, hq⟩) | h)
      · exact Or.inl h
      · rcases (ih fine h1 p h.1 q).mp (Or.inl h) with e | ⟨i, j, hij, hi, hj⟩
        · subst e
          rw [hp] at hq
          left
          have : a = b := by simpa using hq
          exact this.symm
        · exact Or.inr ⟨i, j, hij, (cluster_succ _ _ _ _).mpr ⟨p, hi, hp⟩, (cluster_succ _ _ _ _).mpr ⟨q, hj, hq⟩⟩
      · exact Or.inl h
    · rintro (h | ⟨i, j, hij, hi, hj⟩)
      · exact Or.inr h
      · obtain ⟨p, hp, hpa⟩ := (cluster_succ _ _ _ _).mp hi
        obtain ⟨q, hq, hqb⟩ := (cluster_succ _ _ _ _).mp hj
        rcases (ih fine h1 p (hlt i hij.1 p hp) q).mpr (Or.inr ⟨i, j, hij, hp, hq⟩) with h | e
        · exact Or.inl (Or.inr ⟨p, q, h, hpa, hqb⟩)
        · subst e
          rw [hpa] at hqb
          right
          have : a = b := by simpa using hqb
          exact this.symm

end Amg
end Istl
