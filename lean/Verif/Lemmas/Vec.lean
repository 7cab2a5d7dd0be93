import Verif.Spec.Dense
import Verif.Lemmas.Gsetc
import Verif.Lemmas.SpMat

/-! Arrays as lists: reads, writes, counting loops. -/

namespace Istl

theorem rd_lt {α : Type} {l : List α} {i : Nat} (h : i < l.length) : rd l i = .ok l[i] := by
  simp [rd, h]

theorem rd_ok {α : Type} {l : List α} {i : Nat} {a : α} : rd l i = .ok a ↔ l[i]? = some a := by
  unfold rd
  cases h : l[i]? <;> simp

theorem wr_lt {α : Type} {l : List α} {i : Nat} (a : α) (h : i < l.length) : wr l i a = .ok (l.set i a) := by
  simp [wr, h]

/-- invariant rule for the counting loop -/
theorem forRangeM_inv {S : Type} (n : Nat) (f : Nat → S → Res S) (I : Nat → S → Prop) (s : S) (h0 : I 0 s)
    (hs : ∀ i s, i < n → I i s → ∃ s', f i s = .ok s' ∧ I (i + 1) s') : ∃ s', forRangeM n f s = .ok s' ∧ I n s' := by
  induction n with
  | zero => exact ⟨s, rfl, h0⟩
  | succ n ih =>
    obtain ⟨s1, h1, i1⟩ := ih (fun i s hi => hs i s (by omega))
    obtain ⟨s2, h2, i2⟩ := hs n s1 (by omega) i1
    exact ⟨s2, by rw [forRangeM_succ, h1]; exact h2, i2⟩

theorem VecIs.read {Y : Type} {y : List Y} {n : Nat} {f : Nat → Y} (h : VecIs y n f) {i : Nat} (hi : i < n) :
    rd y i = .ok (f i) := h.2 i hi

theorem VecIs.wr {Y : Type} {y : List Y} {n : Nat} {f : Nat → Y} (h : VecIs y n f) {i : Nat} (v : Y) (hi : i < n) :
    ∃ y', Istl.wr y i v = .ok y' ∧ VecIs y' n (upd f i v) := by
  refine ⟨y.set i v, wr_lt v (by rw [h.1]; exact hi), ?_, ?_⟩
  · rw [List.length_set]; exact h.1
  · intro k hk
    rw [rd_ok, List.getElem?_set]
    have hk' := h.2 k hk
    rw [rd_ok] at hk'
    have : i < y.length := by rw [h.1]; exact hi
    by_cases hki : k = i
    · subst hki; simp [this]
    · simp [Ne.symm hki, upd_ne _ _ hki, hk']

theorem VecIs.congr {Y : Type} {y : List Y} {n : Nat} {f g : Nat → Y} (h : VecIs y n f) (e : ∀ i, i < n → f i = g i) :
    VecIs y n g := ⟨h.1, fun i hi => by rw [← e i hi]; exact h.2 i hi⟩

/-- a loop whose `i`-th pass adds `h i k` to component `k` adds the sum -/
theorem loop_sum {Y : Type} [AddCommMonoid Y] (n L : Nat) (body : Nat → List Y → Res (List Y)) (h : Nat → Nat → Y)
    (hb : ∀ i y f, i < n → VecIs y L f → ∃ y', body i y = .ok y' ∧ VecIs y' L (fun k => f k + h i k))
    (y : List Y) (f : Nat → Y) (hy : VecIs y L f) :
    ∃ y', forRangeM n body y = .ok y' ∧ VecIs y' L (fun k => f k + ∑ i ∈ Finset.range n, h i k) := by
  refine forRangeM_inv n body (fun i y => VecIs y L (fun k => f k + ∑ i ∈ Finset.range i, h i k)) y (by simpa using hy) ?_
  intro i s hi hs
  obtain ⟨y', e, v⟩ := hb i s _ hi hs
  refine ⟨y', e, v.congr ?_⟩
  intro k _
  rw [Finset.sum_range_succ, add_assoc]

end Istl
