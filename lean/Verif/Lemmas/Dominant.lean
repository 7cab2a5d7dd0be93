import Verif.Spec.Dominant
import Verif.Props.C25

/-! # Sweeps contract for diagonally dominant matrices -/

namespace Istl
open Gsetc SpMat
variable {R V : Type} [AddCommGroup V] [Module ℝ V] {ν : Seminorm ℝ V} {A : SpMat R} {size : R → ℝ} {c : Nat → ℝ} {q : ℝ}

theorem list_bound (act : R → V →+ V) (hn : ∀ a, 0 ≤ size a) (hb : ∀ a v, ν (act a v) ≤ size a * ν v) (y : Nat → V) (ε : ℝ) :
    ∀ l : List (Nat × R), (∀ e ∈ l, ν (y e.1) ≤ ε) →
      ν (l.map fun e => act e.2 (y e.1)).sum ≤ (l.map fun e => size e.2).sum * ε := by
  intro l
  induction l with
  | nil => intro _; simp
  | cons e l ih =>
    intro h
    rw [List.map_cons, List.sum_cons, List.map_cons, List.sum_cons, add_mul]
    refine (map_add_le_add ν _ _).trans (add_le_add ((hb _ _).trans ?_) (ih fun e he => h e (List.mem_cons_of_mem _ he)))
    exact mul_le_mul_of_nonneg_left (h e (List.mem_cons_self ..)) (hn _)

theorem off_split (l : List (Nat × R)) (i : Nat) :
    ((l.filter fun e => decide (e.1 ≠ i)).map fun e => size e.2).sum =
      ((l.filter fun e => decide (e.1 < i)).map fun e => size e.2).sum + ((l.filter fun e => decide (i < e.1)).map fun e => size e.2).sum := by
  induction l with
  | nil => simp
  | cons e l ih =>
    rcases Nat.lt_trichotomy e.1 i with h | h | h
    · rw [List.filter_cons_of_pos (by simp; omega), List.filter_cons_of_pos (by simp; omega), List.filter_cons_of_neg (by simp; omega)]
      simp only [List.map_cons, List.sum_cons, ih]; ring
    · rw [List.filter_cons_of_neg (by simp; omega), List.filter_cons_of_neg (by simp; omega), List.filter_cons_of_neg (by simp; omega)]
      exact ih
    · rw [List.filter_cons_of_pos (by simp; omega), List.filter_cons_of_neg (by simp; omega), List.filter_cons_of_pos (by simp; omega)]
      simp only [List.map_cons, List.sum_cons, ih]; ring

theorem partSum_sub (act : R → V →+ V) (A : SpMat R) (P : Nat → Prop) [DecidablePred P] (x y : Nat → V) (i : Nat) :
    A.partSum act P x i - A.partSum act P y i = A.partSum act P (fun j => x j - y j) i := by
  unfold SpMat.partSum
  induction (A.row i).filter fun e => decide (P e.1) with
  | nil => simp
  | cons e l ih =>
    simp only [List.map_cons, List.sum_cons, map_sub] at ih ⊢
    rw [← ih]; abel

theorem partSum_bound {act : R → V →+ V} (hd : A.Dominant ν act size c q) (P : Nat → Prop) [DecidablePred P] (y : Nat → V) (ε : ℝ) (i : Nat)
    (h : ∀ e ∈ A.row i, P e.1 → ν (y e.1) ≤ ε) :
    ν (A.partSum act P y i) ≤ (((A.row i).filter fun e => decide (P e.1)).map fun e => size e.2).sum * ε := by
  unfold SpMat.partSum
  refine list_bound act hd.nonneg hd.bound y ε _ fun e he => ?_
  rw [List.mem_filter] at he
  exact h e he.1 (by simpa using he.2)

theorem size_sum_nonneg (hn : ∀ a, 0 ≤ size a) (l : List (Nat × R)) : 0 ≤ (l.map fun e => size e.2).sum :=
  List.sum_nonneg fun x hx => by
    obtain ⟨e, -, rfl⟩ := List.mem_map.1 hx
    exact hn _

/-- One row: the correction beside the old error is small. -/
theorem dom_row {act : R → V →+ V} (hd : A.Dominant ν act size c q) {i : Nat} (hi : i < A.n) {a : R} (ha : (A.row i).Stores i a) {w : ℝ}
    (hw : 0 ≤ w) {ε : ℝ} (hε : 0 ≤ ε) {y1 y2 : Nat → V} (h1 : ∀ e ∈ A.row i, e.1 < i → ν (y1 e.1) ≤ ε) (h2 : ∀ e ∈ A.row i, i < e.1 → ν (y2 e.1) ≤ ε) {u : V}
    (hu : act a u = -(w • (A.partSum act (· < i) y1 i + A.partSum act (i < ·) y2 i))) : ν u ≤ w * q * ε := by
  have b1 := partSum_bound hd (· < i) y1 ε i h1
  have b2 := partSum_bound hd (i < ·) y2 ε i h2
  have hr := hd.row i hi
  rw [off_split] at hr
  have hs : ν (A.partSum act (· < i) y1 i + A.partSum act (i < ·) y2 i) ≤ q * c i * ε :=
    (map_add_le_add ν _ _).trans ((add_le_add b1 b2).trans (by rw [← add_mul]; exact mul_le_mul_of_nonneg_right hr hε))
  have hg := hd.diag i hi a ha u
  rw [hu, map_neg_eq_map, map_smul_eq_mul, Real.norm_of_nonneg hw] at hg
  have hp := hd.pos i hi
  have : c i * ν u ≤ c i * (w * q * ε) := hg.trans (by nlinarith [mul_le_mul_of_nonneg_left hs hw])
  exact le_of_mul_le_mul_left this hp

/-- The mixed sums that the kernels use. -/
theorem apply_cut (act : R → V →+ V) (A : SpMat R) (P : Nat → Prop) [DecidablePred P] (x : Nat → V) (i : Nat) :
    A.apply act x i = A.partSum act P x i + A.partSum act (fun j => ¬ P j) x i := by
  unfold SpMat.apply SpMat.partSum
  induction A.row i with
  | nil => simp
  | cons e l ih =>
    by_cases h : P e.1
    · simp [h] at ih ⊢; rw [ih]; abel
    · simp [h] at ih ⊢; rw [ih]; abel

variable {β : BlockSolve R V V}

/-- The error after one row of a sweep that uses `x1` before and `x2` behind the diagonal. -/
theorem dom_err (hβ : ∀ a (c : ℝ) x, β.act a (c • x) = c • β.act a x) (hS : A.Sorted) (hd : A.Dominant ν β.act size c q) {w : ℝ} (h0 : 0 ≤ w) (h1 : w ≤ 1)
    {i : Nat} (hi : i < A.n) {a : R} (ha : (A.row i).Stores i a) {z x1 x2 : Nat → V} {xi xi' b : V} {ε : ℝ} (hε : 0 ≤ ε)
    (hz : A.apply β.act z i = b)
    (e1 : ∀ e ∈ A.row i, e.1 < i → ν (z e.1 - x1 e.1) ≤ ε) (e2 : ∀ e ∈ A.row i, i < e.1 → ν (z e.1 - x2 e.1) ≤ ε) (e3 : ν (z i - xi) ≤ ε)
    (h : β.act a (xi' - xi) = w • (b - A.partSum β.act (· < i) x1 i - β.act a xi - A.partSum β.act (i < ·) x2 i)) :
    ν (z i - xi') ≤ (1 - w * (1 - q)) * ε := by
  have hsp := apply_split β.act A (hS i hi) ha z
  rw [hz] at hsp
  have key : β.act a ((z i - xi') - (1 - w) • (z i - xi)) =
      -(w • (A.partSum β.act (· < i) (fun j => z j - x1 j) i + A.partSum β.act (i < ·) (fun j => z j - x2 j) i)) := by
    rw [← partSum_sub, ← partSum_sub, show (z i - xi') - (1 - w) • (z i - xi) = w • (z i - xi) - (xi' - xi) by module, map_sub, hβ, h, hsp, map_sub]
    module
  have hu := dom_row hd hi ha h0 hε e1 e2 key
  have : z i - xi' = (1 - w) • (z i - xi) + ((z i - xi') - (1 - w) • (z i - xi)) := by module
  rw [this]
  refine (map_add_le_add ν _ _).trans ?_
  rw [map_smul_eq_mul, Real.norm_of_nonneg (by linarith)]
  nlinarith [mul_le_mul_of_nonneg_left e3 (show 0 ≤ 1 - w by linarith)]

theorem factor_le (hq : q < 1) (h0 : 0 ≤ w) {ε : ℝ} (hε : 0 ≤ ε) : (1 - w * (1 - q)) * ε ≤ ε := by
  have : 0 ≤ w * (1 - q) := mul_nonneg h0 (by linarith)
  nlinarith

variable (hβ : ∀ a (c : ℝ) x, β.act a (c • x) = c • β.act a x) (hS : A.Sorted) (hG : A.HasDiag) (hC : ∀ i, i < A.n → ∀ e ∈ A.row i, e.1 < A.n)
  (hd : A.Dominant ν β.act size c q) {w : ℝ} (h0 : 0 ≤ w) (h1 : w ≤ 1) {z b : Nat → V} (hz : ∀ i, i < A.n → A.apply β.act z i = b i)
include hβ hS hG hC hd h0 h1 hz

theorem dom_bsorf {x x' : Nat → V} (h : bsorf β.act (solveLoc β) w A b x = .ok x') {ε : ℝ} (hε : 0 ≤ ε) (hx : ∀ i, i < A.n → ν (z i - x i) ≤ ε) :
    ∀ i, i < A.n → ν (z i - x' i) ≤ (1 - w * (1 - q)) * ε := by
  intro i
  induction i using Nat.strong_induction_on with
  | _ i ih =>
    intro hi
    obtain ⟨a, ha⟩ := hG i hi
    have hk := C25_bsorf β w (fun a x => hβ a w x) A hS hG b x x' h i hi a ha
    refine dom_err hβ hS hd h0 h1 hi ha (x1 := x') (x2 := x) hε (hz i hi) (fun e he hlt => (ih e.1 hlt (by omega)).trans (factor_le hd.rate.2 h0 hε))
      (fun e he _ => hx e.1 (hC i hi e he)) (hx i hi) ?_
    have c1 := apply_cut β.act A (· < i) x i
    rw [apply_split β.act A (hS i hi) ha x, add_assoc] at c1
    rw [hk, ← add_left_cancel c1]
    congr 1; abel

theorem dom_bsorb {x x' : Nat → V} (h : bsorb β.act (solveLoc β) w A b x = .ok x') {ε : ℝ} (hε : 0 ≤ ε) (hx : ∀ i, i < A.n → ν (z i - x i) ≤ ε) :
    ∀ i, i < A.n → ν (z i - x' i) ≤ (1 - w * (1 - q)) * ε := by
  intro i hi
  generalize hm : A.n - i = m
  induction m using Nat.strong_induction_on generalizing i with
  | _ m ih =>
    obtain ⟨a, ha⟩ := hG i hi
    have hk := C25_bsorb β w (fun a x => hβ a w x) A hS hG b x x' h i hi a ha
    refine dom_err hβ hS hd h0 h1 hi ha (x1 := x) (x2 := x') hε (hz i hi) (fun e he _ => hx e.1 (hC i hi e he))
      (fun e he hlt => (ih (A.n - e.1) (by have := hC i hi e he; omega) e.1 (hC i hi e he) rfl).trans (factor_le hd.rate.2 h0 hε)) (hx i hi) ?_
    have c1 := apply_cut β.act A (i < ·) x i
    rw [apply_split β.act A (hS i hi) ha x, add_comm] at c1
    rw [hk, ← add_left_cancel c1]
    congr 1; abel

theorem dom_dbjac {x x' : Nat → V} (h : dbjac β.act (solveLoc β) w A b x = .ok x') {ε : ℝ} (hε : 0 ≤ ε) (hx : ∀ i, i < A.n → ν (z i - x i) ≤ ε) :
    ∀ i, i < A.n → ν (z i - x' i) ≤ (1 - w * (1 - q)) * ε := by
  intro i hi
  obtain ⟨a, ha⟩ := hG i hi
  have hk := C25_dbjac β w (fun a x => hβ a w x) A hS hG b x x' h i hi a ha
  refine dom_err hβ hS hd h0 h1 hi ha (x1 := x) (x2 := x) hε (hz i hi) (fun e he _ => hx e.1 (hC i hi e he))
    (fun e he _ => hx e.1 (hC i hi e he)) (hx i hi) ?_
  rw [hk, apply_split β.act A (hS i hi) ha x]
  congr 1; abel

theorem dom_dbgs {x x' : Nat → V} (h : dbgs β.act (solveLoc β) w A b x = .ok x') {ε : ℝ} (hε : 0 ≤ ε) (hx : ∀ i, i < A.n → ν (z i - x i) ≤ ε) :
    ∀ i, i < A.n → ν (z i - x' i) ≤ (1 - w * (1 - q)) * ε := by
  obtain ⟨g, hg1, hg2⟩ := C25_dbgs β w A hS hG b x x' h
  have hg : ∀ i, i < A.n → ν (z i - g i) ≤ (1 - 1 * (1 - q)) * ε := by
    intro i
    induction i using Nat.strong_induction_on with
    | _ i ih =>
      intro hi
      obtain ⟨a, ha⟩ := hG i hi
      refine dom_err hβ hS hd zero_le_one le_rfl hi ha (x1 := g) (x2 := x) (xi := x i) hε (hz i hi)
        (fun e he hlt => (ih e.1 hlt (by omega)).trans (factor_le hd.rate.2 zero_le_one hε)) (fun e he _ => hx e.1 (hC i hi e he)) (hx i hi) ?_
      rw [map_sub, eq_sub_of_add_eq' (hg2 i hi a ha), one_smul]
      abel
  intro i hi
  rw [hg1 i hi, show z i - (w • g i + (1 - w) • x i) = w • (z i - g i) + (1 - w) • (z i - x i) by module]
  refine (map_add_le_add ν _ _).trans ?_
  rw [map_smul_eq_mul, map_smul_eq_mul, Real.norm_of_nonneg h0, Real.norm_of_nonneg (show 0 ≤ 1 - w by linarith)]
  nlinarith [mul_le_mul_of_nonneg_left (hg i hi) h0, mul_le_mul_of_nonneg_left (hx i hi) (show 0 ≤ 1 - w by linarith)]

end Istl
