import Verif.Spec.NanNorm
import Mathlib.Algebra.Order.Floor.Ring
import Mathlib.Data.Rat.Floor
import Mathlib.Tactic.NormNum
import Mathlib.Tactic.Linarith

/-! # C63 — maximum norms never hide a NaN -/

namespace Istl
open NanNorm
variable {K : Type} [Field K] [LinearOrder K] [IsStrictOrderedRing K]

/-- Invariant of the loop: the second component is NaN if an entry is; it is infinite only if an entry is infinite or the sum
overflows; and while it is finite, the first one is the maximum. -/
theorem nanLoop_inv (rnd : K → Option K) (hr : Rounding rnd) (l : List (Fl K)) (hl : ∀ x ∈ l, IsNorm rnd x)
    (s : Fl K × Fl K) (h1 : ∀ t, s.2 = .fin t → 1 ≤ t ∧ rnd t = some t) :
    let r := l.foldl (fun s a => (fmax a s.1, add rnd s.2 a)) s
    (∀ t, r.2 = .fin t → 1 ≤ t ∧ (∃ t0, s.2 = .fin t0) ∧ (∀ x ∈ l, ∃ a, x = .fin a)) ∧
    ((s.2 = .nan ∨ .nan ∈ l) → r.2 = .nan) := by
  induction l generalizing s with
  | nil => exact ⟨fun t ht => ⟨(h1 t ht).1, ⟨t, ht⟩, by simp⟩, by simp⟩
  | cons x l ih =>
    have key : ∀ t, add rnd s.2 x = .fin t → ∃ t0 a, s.2 = .fin t0 ∧ x = .fin a ∧ rnd (t0 + a) = some t := by
      intro t ht
      match hs : s.2, hx : x with
      | .fin t0, .fin a =>
        rw [hs] at ht
        unfold add ofRnd at ht
        dsimp only at ht
        cases hq : rnd (t0 + a) with
        | none => rw [hq] at ht; cases ht
        | some c => rw [hq] at ht; cases ht; exact ⟨t0, a, rfl, rfl, hq⟩
      | .fin _, .inf => rw [hs] at ht; cases ht
      | .fin _, .nan => rw [hs] at ht; cases ht
      | .inf, .fin _ => rw [hs] at ht; cases ht
      | .inf, .inf => rw [hs] at ht; cases ht
      | .inf, .nan => rw [hs] at ht; cases ht
      | .nan, _ => rw [hs] at ht; cases ht
    have step : ∀ t, add rnd s.2 x = .fin t → 1 ≤ t ∧ rnd t = some t := by
      intro t ht
      obtain ⟨t0, a, hs, hx, hq⟩ := key t ht
      obtain ⟨g1, g2⟩ := h1 t0 hs
      obtain ⟨a', ha', hle⟩ := hr.mono t0 (t0 + a) t (le_trans zero_le_one g1)
        (le_add_of_nonneg_right (hl x (by simp) a hx).1) hq
      rw [g2] at ha'
      cases ha'
      exact ⟨le_trans g1 hle, hr.idem _ _ hq⟩
    obtain ⟨i1, i2⟩ := ih (fun y hy => hl y (by simp [hy])) (fmax x s.1, add rnd s.2 x) step
    refine ⟨fun t ht => ?_, fun h => i2 ?_⟩
    · obtain ⟨j1, ⟨t1, j2⟩, j3⟩ := i1 t ht
      obtain ⟨t0, a, hs, hx, _⟩ := key t1 j2
      refine ⟨j1, ⟨t0, hs⟩, fun y hy => ?_⟩
      rcases List.mem_cons.mp hy with rfl | hy
      · exact ⟨a, hx⟩
      · exact j3 y hy
    · rcases h with h | h
      · left
        show add rnd s.2 x = .nan
        rw [h]; rfl
      · rcases List.mem_cons.mp h with h | h
        · left
          show add rnd s.2 x = .nan
          rw [← h]
          cases s.2 <;> rfl
        · exact .inr h

/-- The running maximum of finite numbers. -/
theorem nanLoop_max (rnd : K → Option K) (l : List K) (m : K) (t : Fl K) :
    ∃ m', ((l.map Fl.fin).foldl (fun s a => (fmax a s.1, add rnd s.2 a)) (.fin m, t)).1 = .fin m' ∧ m ≤ m' ∧
      (∀ a ∈ l, a ≤ m') ∧ (m' = m ∨ m' ∈ l) := by
  induction l generalizing m t with
  | nil => exact ⟨m, rfl, le_refl _, by simp, .inl rfl⟩
  | cons a l ih =>
    rw [List.map_cons, List.foldl_cons]
    have hm : fmax (.fin a) (.fin m) = Fl.fin (max a m) := by
      unfold fmax lt
      by_cases h : a < m
      · simp [h, max_eq_right h.le]
      · simp [h, max_eq_left (not_lt.mp h)]
    rw [hm]
    obtain ⟨m', h1, h2, h3, h4⟩ := ih (max a m) (add rnd t (.fin a))
    refine ⟨m', h1, le_trans (le_max_right _ _) h2, ?_, ?_⟩
    · intro c hc
      rcases List.mem_cons.mp hc with rfl | hc
      · exact le_trans (le_max_left _ _) h2
      · exact h3 c hc
    · rcases h4 with h | h
      · rcases max_choice a m with h' | h'
        · exact .inr (by rw [h, h']; simp)
        · exact .inl (by rw [h, h'])
      · exact .inr (by simp [h])

theorem nanLoop_track (rnd : K → Option K) (l : List K) (m : Fl K) (t : K) :
    ((l.map Fl.fin).foldl (fun s a => (fmax a s.1, add rnd s.2 a)) (m, .fin t)).2 = ofRnd (runningSum rnd t l) := by
  induction l generalizing m t with
  | nil => rfl
  | cons a l ih =>
    rw [List.map_cons, List.foldl_cons]
    show (List.foldl _ (fmax (.fin a) m, ofRnd (rnd (t + a))) _).2 = ofRnd ((rnd (t + a)).bind fun s' => runningSum rnd s' l)
    cases rnd (t + a) with
    | some s' => exact ih _ s'
    | none =>
      show (List.foldl _ (fmax (.fin a) m, Fl.inf) _).2 = Fl.inf
      have : ∀ (l : List K) (m : Fl K),
          ((l.map Fl.fin).foldl (fun s a => (fmax a s.1, add rnd s.2 a)) (m, .inf)).2 = .inf := by
        intro l
        induction l with
        | nil => intro m; rfl
        | cons b l ih => intro m; rw [List.map_cons, List.foldl_cons]; exact ih _
      exact this l _

/-- A vector with a NaN or an infinite entry has norm NaN. -/
theorem C63_nan (rnd : K → Option K) (hr : Rounding rnd) (l : List (Fl K)) (hl : ∀ x ∈ l, IsNorm rnd x)
    (h : .nan ∈ l ∨ .inf ∈ l) : vecNorm rnd l = .nan := by
  obtain ⟨h1, h2⟩ := nanLoop_inv rnd hr l hl (.fin 0, .fin 1) fun t ht => by cases ht; exact ⟨le_refl _, hr.one⟩
  have hd : div (loop rnd l).2 (loop rnd l).2 = .nan := by
    match hq : (loop rnd l).2 with
    | .nan => rfl
    | .inf => rfl
    | .fin t =>
      exfalso
      have h3 := (h1 t hq).2.2
      rcases h with h | h
      · obtain ⟨a, ha⟩ := h3 _ h
        cases ha
      · obtain ⟨a, ha⟩ := h3 _ h
        cases ha
  unfold vecNorm
  rw [hd]
  cases (loop rnd l).1 <;> rfl

/-- A vector of finite entries has its maximum as norm if the sum `1 + a₁ + a₂ + …`, computed from left to right, does not
overflow, and NaN if it does. -/
theorem C63_finite (rnd : K → Option K) (hr : Rounding rnd) (l : List K) (hl : ∀ a ∈ l, 0 ≤ a ∧ rnd a = some a) :
    (runningSum rnd 1 l = none → vecNorm rnd (l.map .fin) = .nan) ∧
    (runningSum rnd 1 l ≠ none → ∃ m, vecNorm rnd (l.map .fin) = .fin m ∧ (∀ a ∈ l, a ≤ m) ∧
      (m ∈ l ∨ l = [] ∧ m = 0)) := by
  have ht := nanLoop_track rnd l (.fin 0) 1
  obtain ⟨m, hm, h0, hle, hmem⟩ := nanLoop_max rnd l 0 (.fin 1)
  obtain ⟨h1, _⟩ := nanLoop_inv rnd hr (l.map .fin) (by
    intro x hx a ha
    obtain ⟨c, hc, rfl⟩ := List.mem_map.mp hx
    cases ha
    exact hl _ hc) (.fin 0, .fin 1) fun t ht => by cases ht; exact ⟨le_refl _, hr.one⟩
  have hl2 : (loop rnd (l.map .fin)).2 = ofRnd (runningSum rnd 1 l) := ht
  have hl1 : (loop rnd (l.map .fin)).1 = .fin m := hm
  constructor
  · intro hn
    unfold vecNorm
    rw [hl2, hl1, hn]
    rfl
  · intro hn
    obtain ⟨t, hs⟩ := Option.ne_none_iff_exists'.mp hn
    rw [hs] at hl2
    have ht1 : 1 ≤ t := (h1 t hl2).1
    refine ⟨m, ?_, hle, ?_⟩
    · unfold vecNorm
      rw [hl2, hl1]
      have hrm : rnd m = some m := by
        rcases hmem with rfl | h
        · exact hr.zero
        · exact (hl m h).2
      have hne : t ≠ 0 := fun h => by rw [h] at ht1; exact absurd ht1 (not_le.mpr zero_lt_one)
      simp [ofRnd, div, mul, hne, hrm]
    · rcases hmem with rfl | h
      · cases l with
        | nil => exact .inr ⟨rfl, rfl⟩
        | cons a l =>
          left
          have ha : a = 0 := le_antisymm (hle a (by simp)) (hl a (by simp)).1
          simp [ha]
      · exact .inl h

/-- The norm of a vector is never a wrong number: it is NaN, or it is the maximum of the entries and all of them are finite; it is
a value an entry of an enclosing vector may have. -/
theorem C63_never_wrong (rnd : K → Option K) (hr : Rounding rnd) (l : List (Fl K)) (hl : ∀ x ∈ l, IsNorm rnd x) :
    (vecNorm rnd l = .nan ∨ ∃ m, vecNorm rnd l = .fin m ∧ (∀ x ∈ l, ∃ a, x = .fin a ∧ a ≤ m) ∧
      (.fin m ∈ l ∨ l = [] ∧ m = 0)) ∧ IsNorm rnd (vecNorm rnd l) := by
  by_cases h : ∃ l' : List K, l = l'.map .fin
  · obtain ⟨l', rfl⟩ := h
    have hl' : ∀ a ∈ l', 0 ≤ a ∧ rnd a = some a := fun a ha => hl _ (List.mem_map_of_mem ha) a rfl
    obtain ⟨h1, h2⟩ := C63_finite rnd hr l' hl'
    by_cases hn : runningSum rnd 1 l' = none
    · exact ⟨.inl (h1 hn), fun a ha => by rw [h1 hn] at ha; cases ha⟩
    · obtain ⟨m, e, hle, hm⟩ := h2 hn
      refine ⟨.inr ⟨m, e, ?_, ?_⟩, ?_⟩
      · intro x hx
        obtain ⟨a, ha, rfl⟩ := List.mem_map.mp hx
        exact ⟨a, rfl, hle a ha⟩
      · rcases hm with hm | ⟨rfl, rfl⟩
        · exact .inl (List.mem_map_of_mem hm)
        · exact .inr ⟨rfl, rfl⟩
      · intro a ha
        rw [e] at ha
        cases ha
        rcases hm with hm | ⟨rfl, rfl⟩
        · exact hl' _ hm
        · exact ⟨le_refl _, hr.zero⟩
  · have : .nan ∈ l ∨ .inf ∈ l := by
      by_contra hc
      rw [not_or] at hc
      apply h
      clear h hl
      induction l with
      | nil => exact ⟨[], rfl⟩
      | cons x l ih =>
        obtain ⟨l', rfl⟩ := ih ⟨fun h => hc.1 (by simp [h]), fun h => hc.2 (by simp [h])⟩
        match x with
        | .fin a => exact ⟨a :: l', rfl⟩
        | .nan => exact absurd (by simp) hc.1
        | .inf => exact absurd (by simp) hc.2
    have e := C63_nan rnd hr l hl this
    exact ⟨.inl e, fun a ha => by rw [e] at ha; cases ha⟩

/-- A sum of norms: NaN if and only if a summand is NaN; otherwise infinite, or the rounded sum of finite summands. -/
theorem C63_sums (rnd : K → Option K) (hr : Rounding rnd) (l : List (Fl K)) (hl : ∀ x ∈ l, IsNorm rnd x) :
    (sumNorm rnd l = .nan ↔ .nan ∈ l) ∧ IsNorm rnd (sumNorm rnd l) ∧
    (∀ l' : List K, l = l'.map .fin → sumNorm rnd l = ofRnd (runningSum rnd 0 l')) := by
  have gen : ∀ (l : List (Fl K)) (s : Fl K), (∀ x ∈ l, IsNorm rnd x) → IsNorm rnd s →
      (l.foldl (add rnd) s = .nan ↔ s = .nan ∨ .nan ∈ l) ∧ IsNorm rnd (l.foldl (add rnd) s) := by
    intro l
    induction l with
    | nil => intro s _ hs; exact ⟨by simp, hs⟩
    | cons x l ih =>
      intro s hl hs
      rw [List.foldl_cons]
      have hx := hl x (by simp)
      have hn : add rnd s x = .nan ↔ s = .nan ∨ x = .nan := by
        match s, x with
        | .fin a, .fin b =>
          unfold add ofRnd
          dsimp only
          cases hq : rnd (a + b) <;> simp [hq]
        | .fin _, .inf => simp [add]
        | .fin _, .nan => simp [add]
        | .inf, .fin _ => simp [add]
        | .inf, .inf => simp [add]
        | .inf, .nan => simp [add]
        | .nan, .fin _ => simp [add]
        | .nan, .inf => simp [add]
        | .nan, .nan => simp [add]
      have hi : IsNorm rnd (add rnd s x) := by
        intro c hc
        match s, x, hs, hx, hc with
        | .fin a, .fin b, hs, hx, hc =>
          unfold add ofRnd at hc
          dsimp only at hc
          cases hq : rnd (a + b) with
          | none => rw [hq] at hc; cases hc
          | some d =>
            rw [hq] at hc
            injection hc with hc
            subst hc
            obtain ⟨a', ha', hle⟩ := hr.mono 0 (a + b) d (le_refl _) (add_nonneg (hs a rfl).1 (hx b rfl).1) hq
            rw [hr.zero] at ha'
            cases ha'
            exact ⟨hle, hr.idem _ _ hq⟩
      obtain ⟨i1, i2⟩ := ih (add rnd s x) (fun y hy => hl y (by simp [hy])) hi
      refine ⟨?_, i2⟩
      rw [i1, hn, List.mem_cons, or_assoc]
      simp only [eq_comm]
  obtain ⟨g1, g2⟩ := gen l (.fin 0) hl fun a ha => by cases ha; exact ⟨le_refl _, hr.zero⟩
  refine ⟨?_, g2, ?_⟩
  · unfold sumNorm
    rw [g1]
    simp
  · rintro l' rfl
    unfold sumNorm
    clear gen g1 g2 hl
    have infs : ∀ l : List K, (l.map Fl.fin).foldl (add rnd) .inf = .inf := by
      intro l
      induction l with
      | nil => rfl
      | cons b l ih => rw [List.map_cons, List.foldl_cons]; exact ih
    have : ∀ s, (l'.map Fl.fin).foldl (add rnd) (.fin s) = ofRnd (runningSum rnd s l') := by
      induction l' with
      | nil => intro s; rfl
      | cons a l ih =>
        intro s
        rw [List.map_cons, List.foldl_cons]
        show List.foldl _ (ofRnd (rnd (s + a))) _ = ofRnd ((rnd (s + a)).bind fun s' => runningSum rnd s' l)
        cases rnd (s + a) with
        | some s' => exact ih s'
        | none => exact infs l
    exact this 0

/-- The row-sum norm of a matrix: NaN whenever an entry is NaN; otherwise NaN or the largest of the computed row sums. -/
theorem C63_matrix (rnd : K → Option K) (hr : Rounding rnd) (rows : List (List (Fl K)))
    (hl : ∀ r ∈ rows, ∀ x ∈ r, IsNorm rnd x) :
    ((∃ r ∈ rows, .nan ∈ r) → matNorm rnd rows = .nan) ∧
    (matNorm rnd rows = .nan ∨ ∃ m, matNorm rnd rows = .fin m ∧ (∀ r ∈ rows, ∃ a, sumNorm rnd r = .fin a ∧ a ≤ m) ∧
      ((∃ r ∈ rows, sumNorm rnd r = .fin m) ∨ rows = [] ∧ m = 0)) := by
  have hs : ∀ x ∈ rows.map (rowSum rnd), IsNorm rnd x := by
    intro x hx
    obtain ⟨r, hr', rfl⟩ := List.mem_map.mp hx
    exact (C63_sums rnd hr r (hl r hr')).2.1
  constructor
  · rintro ⟨r, h1, h2⟩
    refine C63_nan rnd hr _ hs (.inl ?_)
    have := (C63_sums rnd hr r (hl r h1)).1.mpr h2
    rw [← this]
    exact List.mem_map_of_mem (f := rowSum rnd) h1
  · rcases (C63_never_wrong rnd hr _ hs).1 with h | ⟨m, e, h1, h2⟩
    · exact .inl h
    · refine .inr ⟨m, e, fun r hr' => h1 _ (List.mem_map_of_mem (f := rowSum rnd) hr'), ?_⟩
      rcases h2 with h2 | ⟨h2, h3⟩
      · obtain ⟨r, hr', e'⟩ := List.mem_map.mp h2
        exact .inl ⟨r, hr', e'⟩
      · exact .inr ⟨List.map_eq_nil_iff.mp h2, h3⟩

/-! ## A machine with integers up to 1000 -/

/-- Rounding down to integers, overflow above 1000. -/
def rnd1000 (a : ℚ) : Option ℚ := if a ≤ 1000 then some ⌊a⌋ else none

theorem rnd1000_rounding : Rounding rnd1000 where
  zero := by simp [rnd1000]
  one := by simp [rnd1000]
  idem := by
    intro a b h
    unfold rnd1000 at h ⊢
    split at h
    · rename_i ha
      cases h
      have : (⌊a⌋ : ℚ) ≤ 1000 := le_trans (Int.floor_le a) ha
      rw [if_pos this, Int.floor_intCast]
    · cases h
  mono := by
    intro a b b' _ hab h
    unfold rnd1000 at h ⊢
    split at h
    · rename_i hb
      cases h
      exact ⟨_, if_pos (le_trans hab hb), by exact_mod_cast Int.floor_mono hab⟩
    · cases h

/-- Non-vacuity: the theorems apply to this machine; a plain vector has its maximum as norm. -/
example : Rounding rnd1000 ∧ vecNorm rnd1000 [.fin 3, .fin 7, .fin 2] = .fin 7 ∧
    matNorm rnd1000 [[.fin 3, .fin 1], [], [.fin 2, .nan]] = .nan ∧
    matNorm rnd1000 [[.fin 3, .fin 1], [], [.fin 2]] = .fin 4 :=
  ⟨rnd1000_rounding, by decide +kernel, by decide +kernel, by decide +kernel⟩

/-- The version for types without NaN: the largest of the entries' norms, zero for the empty vector. -/
theorem C63_plain (l : List ℚ) (h : ∀ a ∈ l, 0 ≤ a) :
    ∃ m, plainNorm (l.map Fl.fin) = .fin m ∧ (∀ a ∈ l, a ≤ m) ∧ ((l = [] ∧ m = 0) ∨ m ∈ l) := by
  have key : ∀ (l : List ℚ) (n : ℚ), ∃ m, (l.map Fl.fin).foldl (fun n a => fmax a n) (Fl.fin n) = .fin m ∧ n ≤ m ∧ (∀ a ∈ l, a ≤ m) ∧ (m = n ∨ m ∈ l) := by
    intro l
    induction l with
    | nil => intro n; exact ⟨n, rfl, le_refl _, by simp, Or.inl rfl⟩
    | cons a l ih =>
      intro n
      have hf : fmax (Fl.fin a) (Fl.fin n) = Fl.fin (if a < n then n else a) := by
        unfold fmax lt
        by_cases h : a < n <;> simp [h]
      obtain ⟨m, h1, h2, h3, h4⟩ := ih (if a < n then n else a)
      refine ⟨m, by rw [List.map_cons, List.foldl_cons, hf, h1], ?_, ?_, ?_⟩
      · split at h2 <;> linarith
      · intro b hb
        rcases List.mem_cons.mp hb with hb | hb
        · subst hb; split at h2 <;> linarith
        · exact h3 b hb
      · rcases h4 with h4 | h4
        · split at h4
          · exact Or.inl h4
          · exact Or.inr (by simp [h4])
        · exact Or.inr (by simp [h4])
  obtain ⟨m, h1, h2, h3, h4⟩ := key l 0
  refine ⟨m, h1, h3, ?_⟩
  rcases h4 with h4 | h4
  · cases l with
    | nil => exact Or.inl ⟨rfl, h4⟩
    | cons a l =>
      have h5 := h3 a (by simp)
      have h6 := h a (by simp)
      exact Or.inr (by rw [show m = a by linarith]; simp)
  · exact Or.inr h4

/-- Without the tracker a NaN in any but the last entry is lost, so the tracker is needed. -/
theorem C63_tracker_needed : plainNorm [.nan, .fin 1] = Fl.fin (1 : ℚ) ∧ vecNorm rnd1000 [.nan, .fin 1] = .nan := by
  decide +kernel

/-- The price: a finite vector can have norm NaN, when the *sum* of its entries overflows although the maximum does not. -/
theorem C63_overflow_counterexample : vecNorm rnd1000 [.fin 600, .fin 600] = .nan ∧
    plainNorm [.fin 600, .fin 600] = Fl.fin (600 : ℚ) := by
  decide +kernel

end Istl
