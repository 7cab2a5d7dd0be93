import Verif.Lemmas.Row

/-! # C01 — Sparse row look-up is exact -/

namespace Istl

/-- `find(j)` returns the position of the entry for column `j` exactly when there is one, `end()` exactly when there is
none, and never reads outside the row. -/
theorem C01_find_exact {B : Type} (r : Row B) (hr : r.Asc) (j : Nat) :
    (∀ k, r.find j = .ok (some k) ↔ ∃ b, r[k]? = some (j, b)) ∧
    (r.find j = .ok none ↔ ¬ r.Has j) ∧
    r.find j ≠ .ub ∧ ∀ e, r.find j ≠ .throw e := by
  rcases Row.search r hr j with ⟨k, hk, hlb, he⟩ | ⟨hno, hlb | ⟨k, hk, hlb, he⟩⟩
  · have hf : r.find j = .ok (some k) := by
      simp [Row.find, hlb, rd_eq _ _ (show k < (r.map Prod.fst).length by simpa using hk), he, Nat.ne_of_lt hk]
    rw [hf]
    refine ⟨?_, ?_, by simp, by simp⟩
    · intro q
      constructor
      · intro h
        simp at h
        subst h
        exact ⟨r[k].2, by rw [List.getElem?_eq_getElem hk, ← he]⟩
      · rintro ⟨b, hb⟩
        obtain ⟨hq, hqe⟩ := List.getElem?_eq_some_iff.mp hb
        have hnd := hr.nodup
        rw [List.nodup_iff_injective_get] at hnd
        have := @hnd ⟨k, by simpa using hk⟩ ⟨q, by simpa using hq⟩ (by simp [he, hqe])
        simp at this
        rw [this]
    · simp
      refine ⟨r[k].2, ?_⟩
      rw [← he]; exact List.getElem_mem hk
  · have hf : r.find j = .ok none := by simp [Row.find, hlb]
    rw [hf]
    refine ⟨?_, by simpa [Row.Has] using hno, by simp, by simp⟩
    intro q
    simp
    intro b hb
    exact hno b (List.mem_of_getElem? hb)
  · have hf : r.find j = .ok none := by
      simp [Row.find, hlb, rd_eq _ _ (show k < (r.map Prod.fst).length by simpa using hk), he, Nat.ne_of_lt hk]
    rw [hf]
    refine ⟨?_, by simpa [Row.Has] using hno, by simp, by simp⟩
    intro q
    simp
    intro b hb
    exact hno b (List.mem_of_getElem? hb)

/-- `operator[](j)` returns exactly the stored value and throws `ISTLError` exactly when nothing is stored. -/
theorem C01_get_exact {B : Type} (r : Row B) (hr : r.Asc) (j : Nat) :
    (∀ b, r.get j = .ok b ↔ r.Stores j b) ∧ (r.get j = .throw .istlError ↔ ¬ r.Has j) ∧ r.get j ≠ .ub := by
  by_cases h : r.Has j
  · obtain ⟨b, hb⟩ := h
    rw [Row.get_of_mem r hr hb]
    refine ⟨?_, by simpa using ⟨b, hb⟩, by simp⟩
    intro c
    constructor
    · intro hc; simp at hc; subst hc; exact hb
    · intro hc; rw [hr.unique hb hc]
  · have hno : ∀ b, (j, b) ∉ r := by simpa [Row.Has] using h
    rw [Row.get_of_not_mem r hr hno]
    refine ⟨?_, by simpa using h, by simp⟩
    intro b
    simp
    exact hno b

/-- `operator[](j) = ...` changes exactly the entry of column `j`, and throws exactly when there is none. -/
theorem C01_modify_exact {B : Type} (r : Row B) (hr : r.Asc) (j : Nat) (f : B → B) :
    (r.Has j → ∃ r', r.modify j f = .ok r' ∧ r'.map Prod.fst = r.map Prod.fst ∧
      ∀ i b, r'.Stores i b ↔ (i ≠ j ∧ r.Stores i b) ∨ (i = j ∧ ∃ a, r.Stores j a ∧ b = f a)) ∧
    (¬ r.Has j → r.modify j f = .throw .istlError) := by
  constructor
  · rintro ⟨b, hb⟩
    refine ⟨_, Row.modify_of_mem r hr hb f, ?_, ?_⟩
    · rw [List.map_map]
      apply List.map_congr_left
      intro e _
      simp only [Function.comp]
      split <;> rfl
    · intro i c
      simp only [Row.Stores, List.mem_map]
      constructor
      · rintro ⟨⟨a1, a2⟩, ha, hae⟩
        by_cases h : a1 = j
        · simp [h] at hae
          obtain ⟨h1, h2⟩ := hae
          right
          exact ⟨h1.symm, a2, h ▸ ha, h2.symm⟩
        · simp [h] at hae
          obtain ⟨h1, h2⟩ := hae
          subst h1 h2
          exact Or.inl ⟨h, ha⟩
      · rintro (⟨h, hm⟩ | ⟨h, a, ha, hc⟩)
        · exact ⟨(i, c), hm, by simp [h]⟩
        · exact ⟨(j, a), ha, by simp [h, hc]⟩
  · intro h
    exact Row.modify_of_not_mem r hr (by simpa [Row.Has] using h) f

/-- `exists(i,j)` answers exactly whether the entry is stored. -/
theorem C01_exists_exact {B : Type} (r : Row B) (hr : r.Asc) (j : Nat) :
    ∃ b, r.exists j = .ok b ∧ (b = true ↔ r.Has j) := by
  unfold Row.exists
  by_cases h0 : r.length = 0
  · simp [List.length_eq_zero_iff.mp h0, Row.Has]
  · obtain ⟨h1, h2, h3, h4⟩ := C01_find_exact r hr j
    simp only [h0, if_false]
    cases hf : r.find j with
    | ok o =>
      refine ⟨o.isSome, rfl, ?_⟩
      cases o with
      | none => simpa using h2.mp hf
      | some k =>
        simp
        obtain ⟨b, hb⟩ := (h1 k).mp hf
        exact ⟨b, List.mem_of_getElem? hb⟩
    | throw e => exact absurd hf (h4 e)
    | ub => exact absurd hf h3

/-- Non-vacuity: a five-entry row with gaps; present, in-between and past-the-end look-ups. -/
example : Row.Asc [(1, "a"), (3, "b"), (4, "c"), (9, "d"), (12, "e")] := by simp [Row.Asc]
example : Row.find [(1, "a"), (3, "b"), (4, "c"), (9, "d"), (12, "e")] 9 = .ok (some 3) := by
  simp [Row.find, lowerBound, lowerBoundGo, rd]
example : Row.get [(1, "a"), (3, "b"), (4, "c"), (9, "d"), (12, "e")] 5 = .throw .istlError := by
  simp [Row.get, lowerBound, lowerBoundGo, rd]

end Istl
