import Verif.Lemmas.Row
import Verif.Spec.SpMat

/-! Helper lemmas about the row loops. -/

namespace Istl

theorem forRange_succ {S : Type} (n : Nat) (f : Nat → S → S) (s : S) :
    forRange (n + 1) f s = f n (forRange n f s) := by
  simp [forRange, List.range_succ]

@[simp] theorem forRange_zero {S : Type} (f : Nat → S → S) (s : S) : forRange 0 f s = s := rfl

theorem forDown_succ {S : Type} (n : Nat) (f : Nat → S → S) (s : S) :
    forDown (n + 1) f s = forDown n f (f n s) := by
  simp [forDown, List.range_succ]

@[simp] theorem forDown_zero {S : Type} (f : Nat → S → S) (s : S) : forDown 0 f s = s := rfl

@[simp] theorem upd_same {Y : Type} (y : Nat → Y) (i : Nat) (v : Y) : upd y i v i = v := by simp [upd]
theorem upd_ne {Y : Type} (y : Nat → Y) {i k : Nat} (v : Y) (h : k ≠ i) : upd y i v k = y k := by simp [upd, h]

/-- a row loop that accumulates into component `i` only -/
theorem foldl_acc {E Y : Type} [AddCommGroup Y] (g : E → Y) (i : Nat) (l : List E) (y : Nat → Y) :
    l.foldl (fun y e => upd y i (y i + g e)) y = upd y i (y i + (l.map g).sum) := by
  induction l generalizing y with
  | nil => funext k; by_cases h : k = i <;> simp [upd, h]
  | cons e l ih =>
    rw [List.foldl_cons, ih]
    funext k
    by_cases h : k = i
    · simp [upd, h, add_assoc]
    · simp [upd, h]

/-- a row loop that scatters into the components named by the entries -/
theorem foldl_scatter {E Y : Type} [AddCommGroup Y] (g : E → Y) (c : E → Nat) (l : List E) (y : Nat → Y) (k : Nat) :
    l.foldl (fun y e => upd y (c e) (y (c e) + g e)) y k = y k + (l.map (fun e => if c e = k then g e else 0)).sum := by
  induction l generalizing y with
  | nil => simp
  | cons e l ih =>
    rw [List.foldl_cons, ih]
    by_cases h : c e = k
    · subst h; simp [add_assoc]
    · simp [upd_ne _ _ (Ne.symm h), h]

/-- A loop over rows whose body rewrites component `i` only. -/
theorem forRange_rows {Y : Type} (n : Nat) (f : Nat → (Nat → Y) → (Nat → Y)) (h : Nat → (Nat → Y) → Y)
    (hf : ∀ i y, f i y = upd y i (h i y)) (hloc : ∀ i y y', y i = y' i → h i y = h i y') (y : Nat → Y) (k : Nat) :
    forRange n f y k = if k < n then h k y else y k := by
  induction n with
  | zero => simp
  | succ n ih =>
    rw [forRange_succ, hf]
    by_cases hk : k = n
    · subst hk
      simp only [upd_same, Nat.lt_succ_self, if_true]
      apply hloc
      simp [ih]
    · rw [upd_ne _ _ hk, ih]
      have : k < n + 1 ↔ k < n := by omega
      simp [this]

theorem forRange_sum {Y : Type} [AddCommMonoid Y] (n : Nat) (f : Nat → (Nat → Y) → (Nat → Y)) (g : Nat → Nat → Y)
    (hf : ∀ i y k, f i y k = y k + g i k) (y : Nat → Y) (k : Nat) :
    forRange n f y k = y k + ∑ i ∈ Finset.range n, g i k := by
  induction n with
  | zero => simp
  | succ n ih => rw [forRange_succ, hf, ih, Finset.sum_range_succ, add_assoc]

theorem list_sum_ite_key {B Y : Type} [AddCommMonoid Y] [Zero B] (r : Row B) (hs : r.Asc) (k : Nat) (g : B → Y)
    (hg : g 0 = 0) : (r.map (fun e => if e.1 = k then g e.2 else 0)).sum = g (r.val k) := by
  have hb : ∃ m, (∀ e ∈ r, e.1 < m) ∧ k < m := by
    refine ⟨(r.map Prod.fst).sum + k + 1, ?_, by omega⟩
    intro e he
    have : e.1 ≤ (r.map Prod.fst).sum := List.single_le_sum (by simp) _ (List.mem_map_of_mem he)
    omega
  obtain ⟨m, hm, hk⟩ := hb
  have := Row.sum_val r hs m hm (fun j b => if j = k then g b else 0) (by intro j; simp [hg])
  rw [← this]
  rw [Finset.sum_eq_single k]
  · simp
  · intro j _ hj; simp [hj]
  · intro h; simp [hk] at h

end Istl
