import Verif.Props.C09

/-! # C11 — matrix addition, subtraction and axpy respect the pattern contract -/

namespace Istl
open SpMat

/-- row version: succeeds iff every column of `y` is stored in `r`; combines entry by entry on an unchanged pattern -/
theorem row_combine {B : Type} (f : B → B → B) (y : Row B) (hy : y.Asc) (r : Row B) (hr : r.Asc) :
    ((∀ j, y.Has j → r.Has j) → ∃ r', r.combine f y = .ok r' ∧ r'.map Prod.fst = r.map Prod.fst ∧
      (∀ j b, r'.Stores j b ↔ (∃ a, r.Stores j a ∧ ((¬ y.Has j ∧ b = a) ∨ ∃ c, y.Stores j c ∧ b = f a c)))) ∧
    ((∃ j, y.Has j ∧ ¬ r.Has j) → r.combine f y = .throw .istlError) := by
  induction y generalizing r with
  | nil =>
    refine ⟨fun _ => ⟨r, rfl, rfl, ?_⟩, ?_⟩
    · intro j b
      simp [Row.Has, Row.Stores]
    · rintro ⟨j, ⟨b, hb⟩, _⟩
      simp at hb
  | cons e y ih =>
    have hy' : Row.Asc y := by
      simp only [Row.Asc, List.map_cons, List.pairwise_cons] at hy; exact hy.2
    have hlt : ∀ j, Row.Has y j → e.1 < j := by
      simp only [Row.Asc, List.map_cons, List.pairwise_cons] at hy
      rintro j ⟨b, hb⟩
      exact hy.1 j (List.mem_map_of_mem (f := Prod.fst) hb)
    have hstep : r.combine f (e :: y) = (r.modify e.1 (fun b => f b e.2) >>= fun r1 => r1.combine f y) := by
      simp [Row.combine, List.foldlM_cons]
    by_cases he : r.Has e.1
    · obtain ⟨a0, ha0⟩ := he
      have hm := Row.modify_of_mem r hr ha0 (fun b => f b e.2)
      set r1 := r.map (fun x => if x.1 = e.1 then (x.1, f x.2 e.2) else x) with hr1
      have hfst : r1.map Prod.fst = r.map Prod.fst := by
        rw [hr1, List.map_map]
        apply List.map_congr_left
        intro x _
        simp only [Function.comp]
        split <;> rfl
      have hasc1 : Row.Asc r1 := by unfold Row.Asc; rw [hfst]; exact hr
      have hhas : ∀ j, Row.Has r1 j ↔ r.Has j := by
        intro j
        have : ∀ s : Row B, s.Has j ↔ j ∈ s.map Prod.fst := by intro s; simp [Row.Has]
        rw [this, this, hfst]
      have hst : ∀ j b, Row.Stores r1 j b ↔ (j ≠ e.1 ∧ r.Stores j b) ∨ (j = e.1 ∧ ∃ a, r.Stores j a ∧ b = f a e.2) := by
        intro i c
        simp only [Row.Stores, hr1, List.mem_map]
        constructor
        · rintro ⟨⟨a1, a2⟩, ha, hae⟩
          by_cases h : a1 = e.1
          · simp [h] at hae
            obtain ⟨h1, h2⟩ := hae
            right
            refine ⟨h1.symm, a2, ?_, h2.symm⟩
            rw [← h1]; exact h ▸ ha
          · simp [h] at hae
            obtain ⟨h1, h2⟩ := hae
            subst h1 h2
            exact Or.inl ⟨h, ha⟩
        · rintro (⟨h, hm⟩ | ⟨h, a, ha, hc⟩)
          · exact ⟨(i, c), hm, by simp [h]⟩
          · exact ⟨(i, a), ha, by simp [h, hc]⟩
      rw [hstep, hm, Res.ok_bind]
      obtain ⟨ih1, ih2⟩ := ih hy' r1 hasc1
      constructor
      · intro hsub
        obtain ⟨r', hr', hf', hs'⟩ := ih1 (by
          intro j hj
          rw [hhas]
          apply hsub
          obtain ⟨b, hb⟩ := hj
          exact ⟨b, List.mem_cons_of_mem _ hb⟩)
        refine ⟨r', hr', by rw [hf', hfst], ?_⟩
        intro j b
        rw [hs']
        by_cases hje : j = e.1
        · have hnot : ¬ Row.Has y j := fun h => by have := hlt j h; omega
          have hHas : Row.Has (e :: y) j := ⟨e.2, by simp [hje]⟩
          have hSt : ∀ c, Row.Stores (e :: y) j c ↔ c = e.2 := by
            intro c
            simp only [Row.Stores, List.mem_cons]
            constructor
            · rintro (h | h)
              · rw [← h]
              · exact absurd ⟨c, h⟩ hnot
            · rintro rfl; left; rw [hje]
          constructor
          · rintro ⟨a, ha, h⟩
            rw [hst] at ha
            rcases ha with ⟨h1, _⟩ | ⟨_, a', ha', haf⟩
            · exact absurd hje h1
            · refine ⟨a', ha', Or.inr ⟨e.2, (hSt _).mpr rfl, ?_⟩⟩
              rcases h with ⟨_, h⟩ | ⟨c, hc, _⟩
              · rw [h, haf]
              · exact absurd ⟨c, hc⟩ hnot
          · rintro ⟨a, ha, h⟩
            rcases h with ⟨h, _⟩ | ⟨c, hc, hb⟩
            · exact absurd hHas h
            · rw [hSt] at hc
              subst hc
              exact ⟨f a e.2, (hst _ _).mpr (Or.inr ⟨hje, a, ha, rfl⟩), Or.inl ⟨hnot, hb⟩⟩
        · have hHas : Row.Has (e :: y) j ↔ Row.Has y j := by
            constructor
            · rintro ⟨b, hb⟩
              rcases List.mem_cons.mp hb with h | h
              · exact absurd (congrArg Prod.fst h) hje
              · exact ⟨b, h⟩
            · rintro ⟨b, hb⟩; exact ⟨b, List.mem_cons_of_mem _ hb⟩
          have hSt : ∀ c, Row.Stores (e :: y) j c ↔ Row.Stores y j c := by
            intro c
            simp only [Row.Stores, List.mem_cons]
            constructor
            · rintro (h | h)
              · exact absurd (congrArg Prod.fst h) hje
              · exact h
            · exact Or.inr
          simp only [hst, hHas, hSt, hje, ne_eq, not_false_eq_true, true_and, false_and, or_false]
      · rintro ⟨j, hj, hjr⟩
        apply ih2
        refine ⟨j, ?_, fun h => hjr ((hhas j).mp h)⟩
        obtain ⟨b, hb⟩ := hj
        rcases List.mem_cons.mp hb with h | h
        · exfalso
          apply hjr
          have : j = e.1 := congrArg Prod.fst h
          rw [this]; exact ⟨a0, ha0⟩
        · exact ⟨b, h⟩
    · have hm := Row.modify_of_not_mem r hr (i := e.1) (by simpa [Row.Has] using he) (fun b => f b e.2)
      rw [hstep, hm, Res.throw_bind]
      refine ⟨fun hsub => absurd (hsub e.1 ⟨e.2, by simp⟩) he, fun _ => rfl⟩

/-- mapM of successful computations -/
theorem mapM_range_ok {β : Type} (n : Nat) (g : Nat → Res β) (v : Nat → β) (h : ∀ i < n, g i = .ok (v i)) :
    (List.range n).mapM g = .ok ((List.range n).map v) := by
  induction n with
  | zero => simp
  | succ n ih =>
    rw [List.range_succ, List.mapM_append, ih (fun i hi => h i (by omega))]
    simp [h n (by omega)]

theorem mapM_range_throw {β : Type} (n : Nat) (g : Nat → Res β) (e : Exc) (h : ∀ i < n, (∃ v, g i = .ok v) ∨ g i = .throw e)
    (h2 : ∃ i < n, g i = .throw e) : (List.range n).mapM g = .throw e := by
  induction n with
  | zero => simp at h2
  | succ n ih =>
    rw [List.range_succ, List.mapM_append]
    by_cases hex : ∃ i < n, g i = .throw e
    · rw [ih (fun i hi => h i (by omega)) hex]
      rfl
    · have hall : ∀ i < n, ∃ v, g i = .ok v := by
        intro i hi
        rcases h i (by omega) with hv | hv
        · exact hv
        · exact absurd ⟨i, hi, hv⟩ hex
      obtain ⟨i, hi, hie⟩ := h2
      have : i = n := by
        by_contra hne
        exact hex ⟨i, by omega, hie⟩
      subst this
      rcases Nat.eq_zero_or_pos i with h0 | h0
      · subst h0; simp [hie]
      · obtain ⟨v0, _⟩ := hall 0 h0
        have : Nonempty β := ⟨v0⟩
        choose! v hv using hall
        rw [mapM_range_ok i g v hv]
        simp [hie]

/-- General statement for the three operations. -/
theorem combine_spec {B : Type} [Zero B] (f : B → B → B) (hf : ∀ a, f a 0 = a) (A b : SpMat B) (hA : A.WF) (hb : b.WF)
    (hn : b.n = A.n) :
    ((∀ i j, b.Has i j → A.Has i j) → ∃ C, combine f A b = .ok C ∧ C.n = A.n ∧ C.m = A.m ∧ C.WF ∧
        (∀ i < A.n, (C.row i).map Prod.fst = (A.row i).map Prod.fst) ∧
        ∀ i < A.n, ∀ j, A.Has i j → C.entry i j = f (A.entry i j) (b.entry i j)) ∧
    ((∃ i j, b.Has i j ∧ ¬ A.Has i j) → combine f A b = .throw .istlError) := by
  have hrow : ∀ i < A.n, _ := fun i hi => row_combine f (b.row i) (hb i (by omega)).1 (A.row i) (hA i hi).1
  constructor
  · intro hsub
    have hex : ∀ i, ∃ r', i < A.n → ((A.row i).combine f (b.row i) = .ok r' ∧ r'.map Prod.fst = (A.row i).map Prod.fst ∧
      (∀ j c, r'.Stores j c ↔ (∃ a, (A.row i).Stores j a ∧ ((¬ (b.row i).Has j ∧ c = a) ∨
        ∃ d, (b.row i).Stores j d ∧ c = f a d)))) := by
      intro i
      by_cases hi : i < A.n
      · obtain ⟨r', h⟩ := (hrow i hi).1 (fun j hj => (hsub i j ⟨by omega, hj⟩).2)
        exact ⟨r', fun _ => h⟩
      · exact ⟨[], fun h => absurd h hi⟩
    choose R hR using hex
    have hC : combine f A b = .ok { A with row := fun i => ((List.range A.n).map R).getD i [] } := by
      unfold combine
      rw [mapM_range_ok A.n _ R (fun i hi => (hR i hi).1)]
      rfl
    have hCrow : ∀ i < A.n, ((List.range A.n).map R).getD i [] = R i := by
      intro i hi; simp [List.getD, hi]
    refine ⟨_, hC, rfl, rfl, ?_, ?_, ?_⟩
    · intro i hi
      simp only at hi ⊢
      rw [hCrow i hi]
      constructor
      · unfold Row.Asc; rw [(hR i hi).2.1]; exact (hA i hi).1
      · intro e he
        have h1 : e.1 ∈ (R i).map Prod.fst := List.mem_map_of_mem (f := Prod.fst) he
        rw [(hR i hi).2.1] at h1
        obtain ⟨e', he', hee⟩ := List.mem_map.mp h1
        rw [← hee]
        exact (hA i hi).2 e' he'
    · intro i hi
      simp only
      rw [hCrow i hi]
      exact (hR i hi).2.1
    · intro i hi j hj
      obtain ⟨_, a, ha⟩ := hj
      have hasc : Row.Asc (R i) := by unfold Row.Asc; rw [(hR i hi).2.1]; exact (hA i hi).1
      simp only [entry]
      rw [hCrow i hi, Row.val_of_mem (hA i hi).1 ha]
      by_cases hbj : (b.row i).Has j
      · obtain ⟨d, hd⟩ := hbj
        rw [Row.val_of_mem (hb i (by omega)).1 hd]
        apply Row.val_of_mem hasc
        exact ((hR i hi).2.2 j _).mpr ⟨a, ha, Or.inr ⟨d, hd, rfl⟩⟩
      · rw [Row.val_of_not_mem (r := b.row i) (by simpa [Row.Has] using hbj), hf]
        apply Row.val_of_mem hasc
        exact ((hR i hi).2.2 j _).mpr ⟨a, ha, Or.inl ⟨hbj, rfl⟩⟩
  · rintro ⟨i, j, ⟨hi, hbj⟩, hAj⟩
    unfold combine
    rw [mapM_range_throw A.n _ .istlError]
    · rfl
    · intro k hk
      by_cases hs : ∀ j, (b.row k).Has j → (A.row k).Has j
      · obtain ⟨r', h, _⟩ := (hrow k hk).1 hs
        exact Or.inl ⟨r', h⟩
      · push Not at hs
        exact Or.inr ((hrow k hk).2 hs)
    · refine ⟨i, by omega, (hrow i (by omega)).2 ⟨j, hbj, fun h => hAj ⟨by omega, h⟩⟩⟩

/-- `A += B` succeeds exactly when the pattern of `B` is contained in that of `A`; then `C_ij = A_ij + B_ij`, on the
unchanged pattern of `A`; otherwise it throws. -/
theorem C11_add {B : Type} [AddCommGroup B] (A b : SpMat B) (hA : A.WF) (hb : b.WF) (hn : b.n = A.n) :
    ((∀ i j, b.Has i j → A.Has i j) → ∃ C, addAssign A b = .ok C ∧ C.n = A.n ∧ C.m = A.m ∧ C.WF ∧
        (∀ i < A.n, (C.row i).map Prod.fst = (A.row i).map Prod.fst) ∧
        ∀ i < A.n, ∀ j, C.entry i j = A.entry i j + b.entry i j) ∧
    ((∃ i j, b.Has i j ∧ ¬ A.Has i j) → addAssign A b = .throw .istlError) := by
  obtain ⟨h1, h2⟩ := combine_spec (fun x y => x + y) (by simp) A b hA hb hn
  refine ⟨fun hsub => ?_, h2⟩
  obtain ⟨C, hC, hn', hm', hwf, hp, he⟩ := h1 hsub
  refine ⟨C, hC, hn', hm', hwf, hp, ?_⟩
  intro i hi j
  by_cases hj : A.Has i j
  · exact he i hi j hj
  · have hA0 : ∀ c, (j, c) ∉ A.row i := fun c hc => hj ⟨hi, c, hc⟩
    have hb0 : ∀ c, (j, c) ∉ b.row i := fun c hc => hj (hsub i j ⟨by omega, c, hc⟩)
    have hC0 : ∀ c, (j, c) ∉ C.row i := by
      intro c hc
      have : j ∈ (C.row i).map Prod.fst := List.mem_map_of_mem (f := Prod.fst) hc
      rw [hp i hi] at this
      obtain ⟨e, he, hej⟩ := List.mem_map.mp this
      exact hA0 e.2 (by rw [← hej]; exact he)
    simp [entry, Row.val_of_not_mem hA0, Row.val_of_not_mem hb0, Row.val_of_not_mem hC0]

/-- `A -= B`: as `C11_add`, with the difference. -/
theorem C11_sub {B : Type} [AddCommGroup B] (A b : SpMat B) (hA : A.WF) (hb : b.WF) (hn : b.n = A.n) :
    ((∀ i j, b.Has i j → A.Has i j) → ∃ C, subAssign A b = .ok C ∧ C.n = A.n ∧ C.m = A.m ∧ C.WF ∧
        (∀ i < A.n, (C.row i).map Prod.fst = (A.row i).map Prod.fst) ∧
        ∀ i < A.n, ∀ j, C.entry i j = A.entry i j - b.entry i j) ∧
    ((∃ i j, b.Has i j ∧ ¬ A.Has i j) → subAssign A b = .throw .istlError) := by
  obtain ⟨h1, h2⟩ := combine_spec (fun x y => x - y) (by simp) A b hA hb hn
  refine ⟨fun hsub => ?_, h2⟩
  obtain ⟨C, hC, hn', hm', hwf, hp, he⟩ := h1 hsub
  refine ⟨C, hC, hn', hm', hwf, hp, ?_⟩
  intro i hi j
  by_cases hj : A.Has i j
  · exact he i hi j hj
  · have hA0 : ∀ c, (j, c) ∉ A.row i := fun c hc => hj ⟨hi, c, hc⟩
    have hb0 : ∀ c, (j, c) ∉ b.row i := fun c hc => hj (hsub i j ⟨by omega, c, hc⟩)
    have hC0 : ∀ c, (j, c) ∉ C.row i := by
      intro c hc
      have : j ∈ (C.row i).map Prod.fst := List.mem_map_of_mem (f := Prod.fst) hc
      rw [hp i hi] at this
      obtain ⟨e, he, hej⟩ := List.mem_map.mp this
      exact hA0 e.2 (by rw [← hej]; exact he)
    simp [entry, Row.val_of_not_mem hA0, Row.val_of_not_mem hb0, Row.val_of_not_mem hC0]

/-- `A.axpy(alpha,B)`: as `C11_add`, with `A + alpha B`. -/
theorem C11_axpy {K B : Type} [Ring K] [AddCommGroup B] [Module K B] (alpha : K) (A b : SpMat B) (hA : A.WF) (hb : b.WF)
    (hn : b.n = A.n) :
    ((∀ i j, b.Has i j → A.Has i j) → ∃ C, axpy alpha A b = .ok C ∧ C.n = A.n ∧ C.m = A.m ∧ C.WF ∧
        (∀ i < A.n, (C.row i).map Prod.fst = (A.row i).map Prod.fst) ∧
        ∀ i < A.n, ∀ j, C.entry i j = A.entry i j + alpha • b.entry i j) ∧
    ((∃ i j, b.Has i j ∧ ¬ A.Has i j) → axpy alpha A b = .throw .istlError) := by
  obtain ⟨h1, h2⟩ := combine_spec (fun x y => x + alpha • y) (by simp) A b hA hb hn
  refine ⟨fun hsub => ?_, h2⟩
  obtain ⟨C, hC, hn', hm', hwf, hp, he⟩ := h1 hsub
  refine ⟨C, hC, hn', hm', hwf, hp, ?_⟩
  intro i hi j
  by_cases hj : A.Has i j
  · exact he i hi j hj
  · have hA0 : ∀ c, (j, c) ∉ A.row i := fun c hc => hj ⟨hi, c, hc⟩
    have hb0 : ∀ c, (j, c) ∉ b.row i := fun c hc => hj (hsub i j ⟨by omega, c, hc⟩)
    have hC0 : ∀ c, (j, c) ∉ C.row i := by
      intro c hc
      have : j ∈ (C.row i).map Prod.fst := List.mem_map_of_mem (f := Prod.fst) hc
      rw [hp i hi] at this
      obtain ⟨e, he, hej⟩ := List.mem_map.mp this
      exact hA0 e.2 (by rw [← hej]; exact he)
    simp [entry, Row.val_of_not_mem hA0, Row.val_of_not_mem hb0, Row.val_of_not_mem hC0]

/-- Non-vacuity: a matrix whose pattern is a proper subset of `exA`'s, and one that is not contained. -/
def exSub : SpMat ℤ := ⟨3, 4, fun i => if i = 2 then [(2, 10)] else []⟩
theorem exSub_wf : exSub.WF := by
  intro i hi
  simp only [exSub] at hi ⊢
  interval_cases i <;> simp [Row.Asc]
example : ∀ i j, exSub.Has i j → exA.Has i j := by
  rintro i j ⟨hi, b, hb⟩
  simp only [exSub] at hi hb
  interval_cases i <;> simp_all [Has, exA, Row.Has]
example : exA.Has 0 1 ∧ ¬ exSub.Has 0 1 := by
  simp [Has, exA, exSub, Row.Has]

end Istl
