import Verif.Spec.Gsetc
import Verif.Lemmas.SpMat

/-! Helper lemmas for the kernels of gsetc.hh. -/

namespace Istl

theorem forRangeM_zero {S : Type} (f : Nat → S → Res S) (s : S) : forRangeM 0 f s = .ok s := rfl
theorem forDownM_zero {S : Type} (f : Nat → S → Res S) (s : S) : forDownM 0 f s = .ok s := rfl

theorem forRangeM_succ {S : Type} (n : Nat) (f : Nat → S → Res S) (s : S) :
    forRangeM (n + 1) f s = (forRangeM n f s >>= f n) := by
  simp only [forRangeM, List.range_succ, List.foldlM_append]
  congr 1
  funext t
  simp only [List.foldlM_cons, List.foldlM_nil]
  cases f n t <;> rfl

theorem forDownM_succ {S : Type} (n : Nat) (f : Nat → S → Res S) (s : S) :
    forDownM (n + 1) f s = (f n s >>= forDownM n f) := by
  simp [forDownM, List.range_succ]
  rfl

/-- A loop that writes component `i` in step `i`, ascending: new values for smaller indices, old ones for the others. -/
theorem forRangeM_gs {S X : Type} (π : S → Nat → X) (f : Nat → S → Res S) (Rel : Nat → (Nat → X) → X → Prop) (n : Nat)
    (hf : ∀ i, i < n → ∀ s s', f i s = .ok s' → ∃ y, π s' = upd (π s) i y ∧ Rel i (π s) y) (s s' : S)
    (h : forRangeM n f s = .ok s') :
    (∀ k, n ≤ k → π s' k = π s k) ∧ ∀ i, i < n → Rel i (fun j => if j < i then π s' j else π s j) (π s' i) := by
  induction n generalizing s' with
  | zero =>
    rw [forRangeM_zero] at h
    obtain rfl : s = s' := by injection h
    exact ⟨fun _ _ => rfl, fun i hi => by omega⟩
  | succ n ih =>
    rw [forRangeM_succ, Res.bind_eq_ok] at h
    obtain ⟨s1, h1, h2⟩ := h
    obtain ⟨ih1, ih2⟩ := ih (fun i hi => hf i (by omega)) s1 h1
    obtain ⟨y, hy, hr⟩ := hf n (by omega) s1 s' h2
    refine ⟨fun k hk => ?_, fun i hi => ?_⟩
    · rw [hy, upd_ne _ _ (by omega), ih1 k (by omega)]
    · by_cases hin : i = n
      · subst hin
        rw [hy, upd_same]
        convert hr using 1
        funext j
        by_cases hj : j < i
        · rw [if_pos hj, upd_ne _ _ (by omega)]
        · rw [if_neg hj, ih1 j (by omega)]
      · have := ih2 i (by omega)
        rw [hy, upd_ne _ _ hin]
        convert this using 1
        funext j
        by_cases hj : j < i
        · rw [if_pos hj, if_pos hj, upd_ne _ _ (by omega)]
        · rw [if_neg hj, if_neg hj]

/-- The same for the descending loop. -/
theorem forDownM_gs {S X : Type} (π : S → Nat → X) (f : Nat → S → Res S) (Rel : Nat → (Nat → X) → X → Prop) (n : Nat)
    (hf : ∀ i, i < n → ∀ s s', f i s = .ok s' → ∃ y, π s' = upd (π s) i y ∧ Rel i (π s) y) (s s' : S)
    (h : forDownM n f s = .ok s') :
    (∀ k, n ≤ k → π s' k = π s k) ∧ ∀ i, i < n → Rel i (fun j => if i < j then π s' j else π s j) (π s' i) := by
  induction n generalizing s with
  | zero =>
    rw [forDownM_zero] at h
    obtain rfl : s = s' := by injection h
    exact ⟨fun _ _ => rfl, fun i hi => by omega⟩
  | succ n ih =>
    rw [forDownM_succ, Res.bind_eq_ok] at h
    obtain ⟨s1, h1, h2⟩ := h
    obtain ⟨ih1, ih2⟩ := ih (fun i hi => hf i (by omega)) s1 h2
    obtain ⟨y, hy, hr⟩ := hf n (by omega) s s1 h1
    have hlow : ∀ j, j ≠ n → π s1 j = π s j := fun j hj => by rw [hy, upd_ne _ _ hj]
    refine ⟨fun k hk => ?_, fun i hi => ?_⟩
    · rw [ih1 k (by omega), hlow k (by omega)]
    · by_cases hin : i = n
      · subst hin
        have : π s' i = y := by rw [ih1 i (by omega), hy, upd_same]
        rw [this]
        convert hr using 1
        funext j
        by_cases hj : i < j
        · rw [if_pos hj, ih1 j (by omega), hlow j (by omega)]
        · rw [if_neg hj]
      · have := ih2 i (by omega)
        convert this using 1
        funext j
        by_cases hj : i < j
        · rw [if_pos hj, if_pos hj]
        · rw [if_neg hj, if_neg hj, hlow j (by omega)]

theorem forRangeM_dich {S : Type} (f : Nat → S → Res S) (good : Nat → Prop) (e : Exc) (n : Nat)
    (h1 : ∀ i, i < n → good i → ∀ s, ∃ s', f i s = .ok s') (h2 : ∀ i, i < n → ¬ good i → ∀ s, f i s = .throw e) (s : S) :
    ((∀ i, i < n → good i) → ∃ s', forRangeM n f s = .ok s') ∧
    (¬ (∀ i, i < n → good i) → forRangeM n f s = .throw e) := by
  induction n with
  | zero => exact ⟨fun _ => ⟨s, rfl⟩, fun h => absurd (fun i hi => by omega) h⟩
  | succ n ih =>
    obtain ⟨a, b⟩ := ih (fun i hi => h1 i (by omega)) (fun i hi => h2 i (by omega))
    rw [forRangeM_succ]
    refine ⟨fun h => ?_, fun h => ?_⟩
    · obtain ⟨s1, hs1⟩ := a fun i hi => h i (by omega)
      rw [hs1, Res.ok_bind]
      exact h1 n (by omega) (h n (by omega)) s1
    · by_cases hlow : ∀ i, i < n → good i
      · obtain ⟨s1, hs1⟩ := a hlow
        rw [hs1, Res.ok_bind]
        refine h2 n (by omega) (fun hg => h fun i hi => ?_) s1
        by_cases hin : i = n
        · subst hin; exact hg
        · exact hlow i (by omega)
      · rw [b hlow, Res.throw_bind]

theorem forDownM_dich {S : Type} (f : Nat → S → Res S) (good : Nat → Prop) (e : Exc) (n : Nat)
    (h1 : ∀ i, i < n → good i → ∀ s, ∃ s', f i s = .ok s') (h2 : ∀ i, i < n → ¬ good i → ∀ s, f i s = .throw e) (s : S) :
    ((∀ i, i < n → good i) → ∃ s', forDownM n f s = .ok s') ∧
    (¬ (∀ i, i < n → good i) → forDownM n f s = .throw e) := by
  induction n generalizing s with
  | zero => exact ⟨fun _ => ⟨s, rfl⟩, fun h => absurd (fun i hi => by omega) h⟩
  | succ n ih =>
    rw [forDownM_succ]
    have ih' := ih (fun i hi => h1 i (by omega)) (fun i hi => h2 i (by omega))
    by_cases hg : good n
    · obtain ⟨s1, hs1⟩ := h1 n (by omega) hg s
      rw [hs1, Res.ok_bind]
      refine ⟨fun h => (ih' s1).1 fun i hi => h i (by omega), fun h => (ih' s1).2 fun hl => h fun i hi => ?_⟩
      by_cases hin : i = n
      · subst hin; exact hg
      · exact hl i (by omega)
    · rw [h2 n (by omega) hg s, Res.throw_bind]
      exact ⟨fun h => absurd (h n (by omega)) hg, fun _ => rfl⟩

namespace Gsetc
variable {B X Y : Type} [AddCommGroup X] [AddCommGroup Y]

theorem residual_eq (act : B → X →+ Y) (es : List (Nat × B)) (v : Nat → X) (rhs : Y) :
    residual act es v rhs = rhs - (es.map fun e => act e.2 (v e.1)).sum := by
  unfold residual
  induction es generalizing rhs with
  | nil => simp
  | cons e es ih => rw [List.foldl_cons, ih, List.map_cons, List.sum_cons, sub_sub]

/-- In an ascending row the entries below the diagonal are the leading ones. -/
theorem takeWhile_lt {r : Row B} (h : r.Asc) (i : Nat) : (r.takeWhile fun e => decide (e.1 < i)) = r.filter fun e => decide (e.1 < i) := by
  induction r with
  | nil => rfl
  | cons e r ih =>
    simp only [Row.Asc, List.map_cons, List.pairwise_cons] at h
    by_cases he : e.1 < i
    · rw [List.takeWhile_cons_of_pos (by simpa using he), List.filter_cons_of_pos (by simpa using he)]
      exact congrArg _ (ih h.2)
    · rw [List.takeWhile_cons_of_neg (by simpa using he), List.filter_cons_of_neg (by simpa using he)]
      symm
      rw [List.filter_eq_nil_iff]
      intro x hx
      have := h.1 x.1 (List.mem_map_of_mem hx)
      simp; omega

theorem dropWhile_lt {r : Row B} (h : r.Asc) (i : Nat) : (r.dropWhile fun e => decide (e.1 < i)) = r.filter fun e => decide (i ≤ e.1) := by
  induction r with
  | nil => rfl
  | cons e r ih =>
    have h' := h
    simp only [Row.Asc, List.map_cons, List.pairwise_cons] at h
    by_cases he : e.1 < i
    · rw [List.dropWhile_cons_of_pos (by simpa using he), List.filter_cons_of_neg (by simp; omega)]
      exact ih h.2
    · rw [List.dropWhile_cons_of_neg (by simpa using he)]
      symm
      rw [List.filter_eq_self]
      intro x hx
      simp only [decide_eq_true_eq]
      rcases List.mem_cons.mp hx with rfl | hx
      · omega
      · have := h.1 x.1 (List.mem_map_of_mem hx)
        omega

/-- The part from the diagonal on: the diagonal entry, then the entries above it. -/
theorem dropWhile_diag {r : Row B} (h : r.Asc) {i : Nat} {a : B} (ha : r.Stores i a) :
    (r.dropWhile fun e => decide (e.1 < i)) = (i, a) :: r.filter fun e => decide (i < e.1) := by
  induction r with
  | nil => simp [Row.Stores] at ha
  | cons e r ih =>
    have h' := h
    simp only [Row.Asc, List.map_cons, List.pairwise_cons] at h
    by_cases he : e.1 < i
    · rw [List.dropWhile_cons_of_pos (by simpa using he), List.filter_cons_of_neg (by simp; omega)]
      apply ih h.2
      rcases List.mem_cons.mp ha with rfl | ha
      · simp at he
      · exact ha
    · rw [List.dropWhile_cons_of_neg (by simpa using he)]
      have hei : e = (i, a) := by
        rcases List.mem_cons.mp ha with hh | hh
        · exact hh.symm
        · have := h.1 i (List.mem_map_of_mem (f := Prod.fst) hh)
          omega
      subst hei
      rw [List.filter_cons_of_neg (by simp)]
      congr 1
      symm
      rw [List.filter_eq_self]
      intro x hx
      have := h.1 x.1 (List.mem_map_of_mem hx)
      simpa using this

theorem stores_unique {r : Row B} (h : r.Asc) {i : Nat} {a b : B} (ha : r.Stores i a) (hb : r.Stores i b) : a = b := by
  have h1 := dropWhile_diag h ha
  have h2 := dropWhile_diag h hb
  rw [h1] at h2
  simpa using h2

/-- Splitting a row at the diagonal. -/
theorem row_split {r : Row B} (h : r.Asc) {i : Nat} {a : B} (ha : r.Stores i a) :
    r = (r.filter fun e => decide (e.1 < i)) ++ (i, a) :: r.filter fun e => decide (i < e.1) := by
  rw [← dropWhile_diag h ha, ← takeWhile_lt h]
  exact List.takeWhile_append_dropWhile.symm

theorem reverse_take {r : Row B} (h : r.Asc) {i : Nat} {a : B} (ha : r.Stores i a) :
    (r.reverse.takeWhile fun e => decide (i < e.1)) = (r.filter fun e => decide (i < e.1)).reverse ∧
    (r.reverse.dropWhile fun e => decide (i < e.1)) = (i, a) :: (r.filter fun e => decide (e.1 < i)).reverse := by
  set U := r.filter fun e => decide (i < e.1) with hU
  set L := r.filter fun e => decide (e.1 < i) with hL
  have e : r.reverse = U.reverse ++ ((i, a) :: L.reverse) := by
    conv_lhs => rw [row_split h ha]
    rw [← hU, ← hL]
    simp
  have hall : ∀ x ∈ U.reverse, (decide (i < x.1)) = true := by
    intro x hx
    rw [List.mem_reverse, hU, List.mem_filter] at hx
    exact hx.2
  rw [e]
  constructor
  · rw [List.takeWhile_append_of_pos hall, List.takeWhile_cons_of_neg (by simp), List.append_nil]
  · rw [List.dropWhile_append_of_pos hall, List.dropWhile_cons_of_neg (by simp)]

theorem partSum_congr (act : B → X →+ Y) (A : SpMat B) (P : Nat → Prop) [DecidablePred P] {x y : Nat → X} (i : Nat)
    (h : ∀ j, P j → x j = y j) : A.partSum act P x i = A.partSum act P y i := by
  unfold SpMat.partSum
  congr 1
  apply List.map_congr_left
  intro e he
  rw [List.mem_filter] at he
  rw [h e.1 (by simpa using he.2)]

/-- The whole row product splits at the diagonal. -/
theorem apply_split (act : B → X →+ Y) (A : SpMat B) {i : Nat} (h : (A.row i).Asc) {a : B} (ha : (A.row i).Stores i a)
    (x : Nat → X) : A.apply act x i = A.partSum act (· < i) x i + act a (x i) + A.partSum act (i < ·) x i := by
  have e : A.apply act x i = ((A.row i).map fun e => act e.2 (x e.1)).sum := by
    simp [SpMat.apply, SpMat.partSum]
  rw [e]
  conv_lhs => rw [row_split h ha]
  simp [SpMat.partSum, add_assoc]

end Gsetc
end Istl
