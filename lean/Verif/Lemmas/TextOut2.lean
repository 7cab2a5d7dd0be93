import Verif.Lemmas.TextOut

namespace Istl
namespace TextOut
open MatDim ForEach Finset
variable {S : Type}

theorem blk_uniq {h : Nat → Nat} {i i2 r r2 : Nat} (hr : r < h i) (hr2 : r2 < h i2) (e : ∑ a ∈ range i, h a + r = ∑ a ∈ range i2, h a + r2) :
    i = i2 ∧ r = r2 := by
  have mono : ∀ a b, a < b → ∑ x ∈ range a, h x + h a ≤ ∑ x ∈ range b, h x := by
    intro a b hab
    rw [← Finset.sum_range_succ]
    exact Finset.sum_le_sum_of_subset (Finset.range_subset_range.mpr hab)
  rcases Nat.lt_trichotomy i i2 with hlt | heq | hlt
  · have := mono i i2 hlt; omega
  · subst heq; exact ⟨rfl, by omega⟩
  · have := mono i2 i hlt; omega

theorem printRow_layout {A : MMat S} {R C : Nat} {P : Nat → Nat → S → Prop} (hL : Layout A R C P) (hf : BlocksFull A) (hC : C < W) :
    ∀ I r, r < R → ∃ cells, printRow A I (I + r) = .ok cells ∧ RowShows P r C cells := by
  induction hL with
  | scalar s =>
    intro I r hr
    refine ⟨[some s], rfl, rfl, fun c hc s' => ?_⟩
    have hc0 : c = 0 := by omega
    subst hc0
    simp only [List.getElem?_cons_zero, Option.some.injEq]
    constructor
    · intro h; exact ⟨by omega, trivial, h.symm⟩
    · intro h; exact h.2.2.symm
  | node k n m pat entry h w Q hpat hk hblk ih =>
    intro I r hr
    have hwW : ∀ j, j < m → w j < W := fun j hj =>
      lt_of_le_of_lt (Finset.single_le_sum (f := w) (fun _ _ => Nat.zero_le _) (Finset.mem_range.mpr hj)) hC
    simp only [printRow]
    have hfull : ∀ i j, i < n → j ∈ pat i → BlocksFull (entry i j) := by
      intro i j hi hj
      have := hf i j hi hj
      cases he : entry i j with
      | scalar s => trivial
      | node k n m pat entry => rw [he] at this; exact this.blocks
    obtain ⟨st, h1, h2⟩ := forRangeM_inv n (fun i (st : List (Option S) × Nat) => do
      let d ← rowdimAt k m pat entry i
      let out ←
        if st.2 ≤ I + r ∧ I + r < st.2 + d then
          forRangeM m (fun j out => do
            let c ← coldimAt k n pat entry j
            if j ∈ pat i then do
              let l ← printRow (entry i j) st.2 (I + r)
              .ok (out ++ l)
            else .ok (out ++ List.replicate c none)) st.1
        else .ok st.1
      .ok (out, st.2 + d))
      (fun i st => st.2 = I + ∑ a ∈ range i, h a ∧ (∑ a ∈ range i, h a ≤ r → st.1 = []) ∧
        (r < ∑ a ∈ range i, h a → RowShows (fun r c x => ∃ i j r' c', i < n ∧ j ∈ pat i ∧ Q i j r' c' x ∧ r = ∑ a ∈ range i, h a + r' ∧ c = ∑ a ∈ range j, w a + c')
          r (∑ j ∈ range m, w j) st.1))
      ([], I) ⟨by simp, fun _ => rfl, fun h => by simp at h⟩ (by
        rintro i ⟨out, i0⟩ hi ⟨e1, e2, e3⟩
        dsimp only at e1 e2 e3
        subst e1
        dsimp only
        rw [rowdimAt_layout hk hblk hi, Res.ok_bind]
        by_cases hin : I + ∑ a ∈ range i, h a ≤ I + r ∧ I + r < I + ∑ a ∈ range i, h a + h i
        · rw [if_pos hin]
          have hout := e2 (by omega)
          subst hout
          obtain ⟨r', hr'⟩ : ∃ r', r = ∑ a ∈ range i, h a + r' := ⟨r - ∑ a ∈ range i, h a, by omega⟩
          have hr'h : r' < h i := by omega
          obtain ⟨out, g1, g2⟩ := forRangeM_inv m (fun j out => do
            let c ← coldimAt k n pat entry j
            if j ∈ pat i then do
              let l ← printRow (entry i j) (I + ∑ a ∈ range i, h a) (I + r)
              Res.ok (out ++ l)
            else Res.ok (out ++ List.replicate c none))
            (fun j out => out.length = ∑ a ∈ range j, w a ∧ ∀ c, c < ∑ a ∈ range j, w a → ∀ s, out[c]? = some (some s) ↔
              ∃ j c', j ∈ pat i ∧ Q i j r' c' s ∧ c = ∑ a ∈ range j, w a + c') [] ⟨by simp, fun c hc => by simp at hc⟩ (by
              rintro j out hj ⟨l1, l2⟩
              rw [coldimAt_layout hk hblk hf hj (hwW j hj), Res.ok_bind]
              have key : ∀ L : List (Option S), L.length = w j → (∀ c, c < w j → ∀ s, L[c]? = some (some s) ↔ (j ∈ pat i ∧ Q i j r' c s)) →
                  (out ++ L).length = ∑ a ∈ range (j + 1), w a ∧ ∀ c, c < ∑ a ∈ range (j + 1), w a → ∀ s, (out ++ L)[c]? = some (some s) ↔
                    ∃ j c', j ∈ pat i ∧ Q i j r' c' s ∧ c = ∑ a ∈ range j, w a + c' := by
                intro L hL hLs
                rw [Finset.sum_range_succ]
                refine ⟨by rw [List.length_append, l1, hL], fun c hc s => ?_⟩
                by_cases hlt : c < ∑ a ∈ range j, w a
                · rw [List.getElem?_append_left (by omega)]; exact l2 c hlt s
                · rw [List.getElem?_append_right (by omega), l1, hLs _ (by omega)]
                  constructor
                  · rintro ⟨a, b⟩; exact ⟨j, _, a, b, by omega⟩
                  · rintro ⟨j2, c2, a, b, e⟩
                    have hc2 := (layout_bounds (hblk i j2 hi a) _ _ _ b).2
                    obtain ⟨e1, e2⟩ := blk_uniq (h := w) (i := j2) (i2 := j) (r := c2) (r2 := c - ∑ a ∈ range j, w a) hc2 (by omega) (by omega)
                    subst e1; rw [← e2]; exact ⟨a, b⟩
              by_cases hmem : j ∈ pat i
              · rw [if_pos hmem]
                have hCj := hwW j hj
                obtain ⟨cells, c1, c2, c3⟩ := ih i j hi hmem (hfull i j hi hmem) hCj (I + ∑ a ∈ range i, h a) r' hr'h
                rw [show I + r = I + ∑ a ∈ range i, h a + r' by omega, c1, Res.ok_bind]
                exact ⟨_, rfl, key cells c2 (fun c hc s => by rw [c3 c hc s]; exact ⟨fun h => ⟨hmem, h⟩, fun h => h.2⟩)⟩
              · rw [if_neg hmem]
                refine ⟨_, rfl, key _ (by simp) (fun c hc s => ?_)⟩
                constructor
                · intro h
                  rw [List.getElem?_replicate, if_pos hc] at h
                  simp at h
                · rintro ⟨a, _⟩; exact absurd a hmem)
          refine ⟨(out, I + ∑ a ∈ range i, h a + h i), ?_, ?_, ?_, ?_⟩
          · rw [g1, Res.ok_bind]
          · rw [Finset.sum_range_succ]; dsimp only; omega
          · intro hle; rw [Finset.sum_range_succ] at hle; omega
          · intro _
            refine ⟨g2.1, fun c hc s => ?_⟩
            rw [g2.2 c hc s]
            constructor
            · rintro ⟨j, c', a, b, e⟩; exact ⟨i, j, r', c', hi, a, b, hr', e⟩
            · rintro ⟨i2, j, r2, c', hi2, a, b, e, e'⟩
              have hr2 := (layout_bounds (hblk i2 j hi2 a) _ _ _ b).1
              obtain ⟨x1, x2⟩ := blk_uniq (h := h) (i := i) (i2 := i2) hr'h hr2 (by omega)
              subst x1; subst x2
              exact ⟨j, c', a, b, e'⟩
        · rw [if_neg hin, Res.ok_bind]
          refine ⟨_, rfl, ?_, ?_, ?_⟩
          · rw [Finset.sum_range_succ]; dsimp only; omega
          · intro hle; rw [Finset.sum_range_succ] at hle; exact e2 (by omega)
          · intro hlt; rw [Finset.sum_range_succ] at hlt; exact e3 (by omega))
    refine ⟨st.1, ?_, h2.2.2 hr⟩
    rw [h1, Res.ok_bind]

end TextOut
end Istl
