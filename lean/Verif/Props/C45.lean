import Verif.Spec.AmgTransfer
import Verif.Lemmas.Vec
import Mathlib.Algebra.Module.Basic
import Mathlib.Algebra.Group.Hom.Basic
import Mathlib.Algebra.Field.Rat

/-! # C45: restriction is the transpose of prolongation -/

namespace Istl
open Amg Finset

variable {X K : Type} [AddCommMonoid X] [Semiring K] [Module K X]

/-- `restrictVector` computes `Pᵀ d`, whatever the coarse vector held before. -/
theorem C45_restrict (agg : List Agg) (n k : Nat) (hm : MapOK agg n k) (coarse fine : List X) (d : Nat → X)
    (hc : coarse.length = k) (hf : VecIs fine n d) :
    ∃ c', Amg.restrict agg coarse fine = .ok c' ∧ VecIs c' k (Pt agg n d) := by
  unfold Amg.restrict
  rw [hf.1]
  obtain ⟨c', e, h⟩ := loop_sum n k (fun i c => restrictStep agg fine i c)
    (fun i a => if agg[i]? = some (.id a) then d i else 0) (by
      intro i y f hi hy
      have hd := hf.2 i hi
      rcases hm.2 i hi with h | ⟨a, ha, h⟩
      · refine ⟨y, by simp [restrictStep, rd_ok.mpr h], hy.congr ?_⟩
        intro q _; simp [h]
      · obtain ⟨y', e, hv⟩ := hy.wr (f a + d i) ha
        refine ⟨y', ?_, hv.congr ?_⟩
        · simp [restrictStep, rd_ok.mpr h, Agg.index, hy.2 a ha, hd, e]
        · intro q _
          by_cases hq : q = a
          · subst hq; simp [h]
          · rw [upd_ne _ _ hq]; simp [h, Ne.symm hq]) (coarse.map fun _ => 0) (fun _ => 0)
    ⟨by simpa using hc, by intro i hi; rw [rd_ok]; simp [show i < coarse.length by omega]⟩
  exact ⟨c', e, h.congr (by intro a _; simp [Pt])⟩

/-- `prolongateVector` adds `damp * P c` to the fine vector and scales the coarse vector by `damp`; isolated vertices keep their
value. -/
theorem C45_prolongate (agg : List Agg) (n k : Nat) (hm : MapOK agg n k) (coarse fine : List X) (c d : Nat → X) (damp : K)
    (hc : VecIs coarse k c) (hf : VecIs fine n d) :
    ∃ c' f', prolongate agg coarse fine damp = .ok (c', f') ∧ VecIs c' k (fun a => damp • c a) ∧
      VecIs f' n (fun i => d i + damp • P agg c i) ∧
      ∀ i, i < n → agg[i]? = some .iso → rd f' i = .ok (d i) := by
  have hc' : VecIs (dampAll damp coarse) k (fun a => damp • c a) := by
    refine ⟨by simpa [dampAll] using hc.1, ?_⟩
    intro a ha
    have := rd_ok.mp (hc.2 a ha)
    rw [rd_ok]
    simp [dampAll, this]
  obtain ⟨f', e, h⟩ := forRangeM_inv n (fun i fine => prolongStep agg (dampAll damp coarse) i fine)
    (fun i f => VecIs f n (fun q => if q < i then d q + damp • P agg c q else d q)) fine (hf.congr (by intros; simp)) (by
      intro i y hi hy
      have hd := hy.2 i hi
      dsimp only at hd
      rw [if_neg (lt_irrefl i)] at hd
      rcases hm.2 i hi with h | ⟨a, ha, h⟩
      · refine ⟨y, by simp [prolongStep, rd_ok.mpr h], hy.congr ?_⟩
        intro q _
        by_cases hq : q = i
        · subst hq; simp [P, h]
        · have : q < i ↔ q < i + 1 := by omega
          simp [this]
      · obtain ⟨y', e, hv⟩ := hy.wr (d i + damp • c a) hi
        refine ⟨y', ?_, hv.congr ?_⟩
        · simp [prolongStep, rd_ok.mpr h, Agg.index, hc'.2 a ha, hd, e]
        · intro q _
          by_cases hq : q = i
          · subst hq; simp [P, h]
          · rw [upd_ne _ _ hq]
            have : q < i ↔ q < i + 1 := by omega
            simp [this])
  have h' : VecIs f' n (fun i => d i + damp • P agg c i) := h.congr (by intro q hq; rw [if_pos hq])
  refine ⟨dampAll damp coarse, f', ?_, hc', h', ?_⟩
  · unfold prolongate
    dsimp only
    rw [hf.1, e]
    rfl
  · intro i hi h
    have := h'.2 i hi
    dsimp only at this
    rw [this]
    simp [P, h]

/-- `Pᵀ` is the transpose of `P` for every bi-additive pairing of the block vectors. -/
theorem C45_transpose {Y Z : Type} [AddCommGroup Y] [AddCommGroup Z] (agg : List Agg) (n k : Nat) (hm : MapOK agg n k)
    (dot : X →+ Y →+ Z) (d : Nat → X) (c : Nat → Y) :
    ∑ a ∈ range k, dot (Pt agg n d a) (c a) = ∑ i ∈ range n, dot (d i) (P agg c i) := by
  simp only [Pt, map_sum, AddMonoidHom.finsetSum_apply]
  rw [Finset.sum_comm]
  apply Finset.sum_congr rfl
  intro i hi
  rcases hm.2 i (Finset.mem_range.mp hi) with h | ⟨a, ha, h⟩
  · simp [h, P]
  · rw [Finset.sum_eq_single a]
    · simp [h, P]
    · intro b _ hb
      simp [h, Ne.symm hb]
    · intro hna
      exact absurd (Finset.mem_range.mpr ha) hna

/-- The two functions as computed: the product of `restrictVector(d)` with `c` equals the product of `d` with what
`prolongateVector` (damping factor 1) adds to a zero vector. -/
theorem C45_adjoint {Y Z : Type} [AddCommGroup Y] [Module K Y] [AddCommGroup Z] (agg : List Agg) (n k : Nat) (hm : MapOK agg n k)
    (dot : X →+ Y →+ Z) (dv cv0 : List X) (cv zv : List Y) (d : Nat → X) (c : Nat → Y)
    (hd : VecIs dv n d) (hc0 : cv0.length = k) (hc : VecIs cv k c) (hz : VecIs zv n (fun _ => 0)) :
    ∃ r pc p, Amg.restrict agg cv0 dv = .ok r ∧ prolongate agg cv zv (1 : K) = .ok (pc, p) ∧
      ∃ rf pf, VecIs r k rf ∧ VecIs p n pf ∧
        ∑ a ∈ range k, dot (rf a) (c a) = ∑ i ∈ range n, dot (d i) (pf i) := by
  obtain ⟨r, e1, h1⟩ := C45_restrict agg n k hm cv0 dv d hc0 hd
  obtain ⟨pc, p, e2, _, h2, _⟩ := C45_prolongate agg n k hm cv zv c (fun _ => 0) (1 : K) hc hz
  exact ⟨r, pc, p, e1, e2, _, _, h1, h2, by simpa using C45_transpose agg n k hm dot d c⟩

/-- Non-vacuity: four vertices, two aggregates, one isolated vertex. -/
example : MapOK [.id 1, .iso, .id 0, .id 1] 4 2 ∧
    Amg.restrict [Agg.id 1, .iso, .id 0, .id 1] [9, 9] [1, 2, 3, (4 : ℚ)] = .ok [3, 5] ∧
    prolongate [Agg.id 1, .iso, .id 0, .id 1] [1, 2] [10, 20, 30, 40] (3 : ℚ) = .ok ([3, 6], [16, (20 : ℚ), 33, 46]) := by
  refine ⟨⟨rfl, ?_⟩, by decide +kernel, by decide +kernel⟩
  intro i hi
  interval_cases i <;> simp

end Istl
