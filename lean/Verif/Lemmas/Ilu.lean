import Verif.Spec.Ilu
import Verif.Lemmas.Gsetc
import Verif.Props.C24

/-! Helper lemmas for the ILU factorisations. -/

namespace Istl
namespace Ilu
variable {R : Type} [Ring R]
open Gsetc

theorem val_cons_eq (j : Nat) (b : R) (r : Row R) : Row.val ((j, b) :: r) j = b := by simp [Row.val]
theorem val_cons_ne {k j : Nat} (b : R) (r : Row R) (h : k ≠ j) : Row.val ((k, b) :: r) j = r.val j := by
  simp [Row.val, List.find?_cons, h]

theorem val_zero_of_lt {r : Row R} {j : Nat} (h : ∀ e ∈ r, j < e.1) : r.val j = 0 :=
  Row.val_of_not_mem fun b hb => by have := h _ hb; simp at this

theorem asc_cons {B : Type} {e : Nat × B} {r : Row B} : Row.Asc (e :: r) ↔ (∀ x ∈ r, e.1 < x.1) ∧ Row.Asc r := by
  simp only [Row.Asc, List.map_cons, List.pairwise_cons, List.mem_map]
  constructor
  · rintro ⟨h1, h2⟩; exact ⟨fun x hx => h1 x.1 ⟨x, hx, rfl⟩, h2⟩
  · rintro ⟨h1, h2⟩; exact ⟨by rintro _ ⟨x, hx, rfl⟩; exact h1 x hx, h2⟩

/-- The merge loop subtracts `l` times the other row at every entry. -/
theorem mergeSub_eq (l : R) (ik jk : Row R) (hi : ik.Asc) (hj : jk.Asc) :
    mergeSub l ik jk = ik.map fun e => (e.1, e.2 - l * jk.val e.1) := by
  fun_induction mergeSub l ik jk with
  | case1 => rfl
  | case2 ik hne =>
    simp [Row.val]
  | case3 k a ik b jk ih =>
    rw [asc_cons] at hi hj
    rw [ih hi.2 hj.2, List.map_cons, val_cons_eq]
    congr 1
    apply List.map_congr_left
    intro e he
    rw [val_cons_ne _ _ (by have := hi.1 e he; simp at this; omega)]
  | case4 k a ik k' b jk h1 h2 ih =>
    have hj' := hj
    rw [asc_cons] at hi hj
    rw [ih hi.2 hj', List.map_cons]
    have : Row.val ((k', b) :: jk) k = 0 := by
      apply val_zero_of_lt
      intro e he
      rcases List.mem_cons.mp he with rfl | he
      · exact h2
      · have := hj.1 e he; simp at this; omega
    rw [this, mul_zero, sub_zero]
  | case5 k a ik k' b jk h1 h2 ih =>
    have hi' := hi
    rw [asc_cons] at hi hj
    rw [ih hi' hj.2]
    apply List.map_congr_left
    intro e he
    rw [val_cons_ne]
    rcases List.mem_cons.mp he with rfl | he
    · simp; omega
    · have := hi.1 e he; simp at this; omega

/-- What `find` and the following increment give on a row with stored diagonal. -/
theorem find_drop {B : Type} {r : Row B} (hr : r.Asc) {j : Nat} {d : B} (hd : r.Stores j d) :
    ∃ q, r.find j = .ok (some q) ∧ rd r q = .ok (j, d) ∧ r.drop (q + 1) = r.filter fun e => decide (j < e.1) := by
  obtain ⟨q, h1, h2⟩ := find_diag r hr hd
  refine ⟨q, h1, h2, ?_⟩
  have hs := row_split hr hd
  have hq : r[q]? = some (j, d) := by
    unfold rd at h2
    cases hh : r[q]? with
    | none => simp [hh] at h2
    | some x => simp [hh] at h2; rw [h2]
  set L := r.filter fun e => decide (e.1 < j)
  set U := r.filter fun e => decide (j < e.1)
  have hql : q < r.length := by
    by_contra hc
    rw [List.getElem?_eq_none (by omega)] at hq; cases hq
  have hL : L.length < r.length := by rw [hs]; simp
  have hLr : r[L.length]? = some (j, d) := by
    rw [hs]; simp
  have : q = L.length := by
    have hnd := hr.nodup
    rw [List.nodup_iff_injective_get] at hnd
    have := @hnd ⟨q, by simpa using hql⟩ ⟨L.length, by simpa using hL⟩ (by
      rw [List.getElem?_eq_getElem hql] at hq
      rw [List.getElem?_eq_getElem hL] at hLr
      simp at hq hLr
      simp [hq, hLr])
    simpa using this
  subst this
  conv_lhs => rw [hs]
  rw [List.drop_append]
  simp

theorem val_filter_gt {r : Row R} {j k : Nat} (h : j < k) : Row.val (r.filter fun e => decide (j < e.1)) k = r.val k := by
  induction r with
  | nil => rfl
  | cons e r ih =>
    by_cases he : j < e.1
    · rw [List.filter_cons_of_pos (by simpa using he)]
      by_cases hk : e.1 = k
      · obtain ⟨e1, e2⟩ := e
        simp only at hk; subst hk
        rw [val_cons_eq, val_cons_eq]
      · obtain ⟨e1, e2⟩ := e
        rw [val_cons_ne _ _ hk, val_cons_ne _ _ hk]; exact ih
    · rw [List.filter_cons_of_neg (by simpa using he)]
      obtain ⟨e1, e2⟩ := e
      rw [val_cons_ne _ _ (by simp at he; omega)]; exact ih

theorem asc_filter {r : Row R} (h : r.Asc) (p : Nat × R → Bool) : Row.Asc (r.filter p) := by
  unfold Row.Asc at *
  rw [List.pairwise_map] at *
  exact h.filter p

theorem asc_map {r : Row R} (h : r.Asc) (f : Nat × R → R) : Row.Asc (r.map fun e => (e.1, f e)) := by
  unfold Row.Asc at *
  rw [List.map_map]
  exact h

/-- The rows above `i` are finished: ascending with the inverse pivots on the diagonal. -/
def Finished (rows : Nat → Row R) (piv dinv : Nat → R) (i : Nat) : Prop :=
  ∀ j, j < i → (rows j).Asc ∧ (rows j).Stores j (dinv j) ∧ piv j * dinv j = 1 ∧ dinv j * piv j = 1

/-- One elimination step. -/
theorem elim_step {rows : Nat → Row R} {piv dinv : Nat → R} {i : Nat} (H : Finished rows piv dinv i) (I : BlockInv R)
    (fin : List (Nat × R)) {j : Nat} (a : R) (rest : Row R) (hj : j < i) (hr : Row.Asc ((j, a) :: rest)) :
    elimRow I rows i fin ((j, a) :: rest) = elimRow I rows i (fin ++ [(j, a * dinv j)])
      (rest.map fun e => (e.1, e.2 - a * dinv j * (rows j).val e.1)) := by
  obtain ⟨h1, h2, -⟩ := H j hj
  obtain ⟨q, e1, e2, e3⟩ := find_drop h1 h2
  rw [asc_cons] at hr
  rw [elimRow]
  simp only [hj, if_true, e1, e2, e3]
  rw [mergeSub_eq _ _ _ hr.2 (asc_filter h1 _)]
  congr 1
  apply List.map_congr_left
  intro e he
  rw [val_filter_gt (hr.1 e he)]

/-- The equation that ties the original entry `a` at `(i,j)` to the factor row `tail`. -/
def RowEq (rows : Nat → Row R) (piv : Nat → R) (i : Nat) (p : R) (tail : Row R) (j : Nat) (a f : R) : Prop :=
  a = ((tail.filter fun e => decide (e.1 < i ∧ e.1 < j)).map fun e => e.2 * (rows e.1).val j).sum +
    (if j < i then f * piv j else if j = i then p else f)

theorem rowEq_cons {rows : Nat → Row R} {piv : Nat → R} {i : Nat} {p l : R} {tail : Row R} {j0 j : Nat} {a f : R}
    (h0 : j0 < i) (hj : j0 < j) :
    RowEq rows piv i p ((j0, l) :: tail) j a f ↔ RowEq rows piv i p tail j (a - l * (rows j0).val j) f := by
  unfold RowEq
  rw [List.filter_cons_of_pos (by simp [h0, hj])]
  rw [List.map_cons, List.sum_cons, add_assoc]
  constructor
  · intro h; rw [h]; abel
  · intro h; rw [← h]; abel

theorem rowEq_first {rows : Nat → Row R} {piv : Nat → R} {i : Nat} {p f a : R} {tail : Row R} {j : Nat}
    (h : ∀ e ∈ tail, j ≤ e.1) :
    RowEq rows piv i p tail j a f ↔ a = if j < i then f * piv j else if j = i then p else f := by
  unfold RowEq
  have : (tail.filter fun e => decide (e.1 < i ∧ e.1 < j)) = [] := by
    rw [List.filter_eq_nil_iff]
    intro e he
    have := h e he
    simp; omega
  rw [this]; simp

theorem rowEq_upper {rows : Nat → Row R} {piv : Nat → R} {i : Nat} {p f a : R} {tail : Row R} {j : Nat}
    (h : ∀ e ∈ tail, i ≤ e.1) :
    RowEq rows piv i p tail j a f ↔ a = if j < i then f * piv j else if j = i then p else f := by
  unfold RowEq
  have : (tail.filter fun e => decide (e.1 < i ∧ e.1 < j)) = [] := by
    rw [List.filter_eq_nil_iff]
    intro e he
    have := h e he
    simp; omega
  rw [this]; simp

/-- Soundness of the elimination of one row. -/
theorem elim_sound {rows : Nat → Row R} {piv dinv : Nat → R} {i : Nat} (H : Finished rows piv dinv i) (I : BlockInv R)
    (k : Nat) : ∀ (rest : Row R), rest.length = k → ∀ (fin : List (Nat × R)) (r' : Row R), rest.Asc →
      elimRow I rows i fin rest = .ok r' →
      ∃ tail p, r' = fin ++ tail ∧ tail.map Prod.fst = rest.map Prod.fst ∧
        (∃ f, (i, f) ∈ tail ∧ p * f = 1 ∧ f * p = 1) ∧
        ∀ j a, (j, a) ∈ rest → ∃ f, (j, f) ∈ tail ∧ RowEq rows piv i p tail j a f := by
  induction k with
  | zero =>
    intro rest hl fin r' _ h
    obtain rfl := List.length_eq_zero_iff.mp hl
    rw [elimRow] at h; cases h
  | succ k ih =>
    intro rest hl fin r' hasc h
    match rest, hl with
    | (j0, a0) :: rest, hl =>
      have hl' : rest.length = k := by simpa using hl
      have hasc' := hasc
      rw [asc_cons] at hasc
      by_cases hj : j0 < i
      · rw [elim_step H I fin a0 rest hj hasc'] at h
        obtain ⟨tail, p, g1, g2, g3, g4⟩ := ih _ (by simpa using hl') _ r' (asc_map hasc.2 _) h
        simp only [List.map_map] at g2
        have hcols : tail.map Prod.fst = rest.map Prod.fst := g2
        have hgt : ∀ e ∈ tail, j0 < e.1 := by
          intro e he
          have : e.1 ∈ rest.map Prod.fst := hcols ▸ List.mem_map_of_mem he
          obtain ⟨x, hx, hxe⟩ := List.mem_map.mp this
          have := hasc.1 x hx; simp at this; omega
        refine ⟨(j0, a0 * dinv j0) :: tail, p, by simpa using g1, by simp [hcols], ?_, ?_⟩
        · obtain ⟨f, h1, h2⟩ := g3; exact ⟨f, List.mem_cons_of_mem _ h1, h2⟩
        · intro j a hja
          rcases List.mem_cons.mp hja with heq | hja
          · obtain ⟨rfl, rfl⟩ := Prod.mk.inj heq
            refine ⟨a * dinv j, by simp, ?_⟩
            rw [rowEq_first (by intro e he; rcases List.mem_cons.mp he with rfl | he; exact le_refl _; exact le_of_lt (hgt e he))]
            rw [if_pos hj, mul_assoc, (H j hj).2.2.2, mul_one]
          · have hlt : j0 < j := hasc.1 _ hja
            obtain ⟨f, h1, h2⟩ := g4 j (a - a0 * dinv j0 * (rows j0).val j)
              (List.mem_map.mpr ⟨(j, a), hja, rfl⟩)
            exact ⟨f, List.mem_cons_of_mem _ h1, (rowEq_cons hj hlt).mpr h2⟩
      · rw [elimRow] at h
        simp only [hj, if_false] at h
        by_cases hji : j0 = i
        · subst hji
          simp only [ne_eq, not_true, if_false] at h
          cases hinv : I.inv a0 with
          | none => rw [hinv] at h; cases h
          | some b =>
            simp only [hinv] at h
            injection h with h
            have hb := (I.inv_iff a0 b).mp hinv
            have hge : ∀ e ∈ (j0, b) :: rest, j0 ≤ e.1 := by
              intro e he
              rcases List.mem_cons.mp he with rfl | he
              · exact le_refl _
              · exact le_of_lt (hasc.1 e he)
            refine ⟨(j0, b) :: rest, a0, h.symm, by simp, ⟨b, by simp, hb⟩, ?_⟩
            intro j a hja
            rcases List.mem_cons.mp hja with heq | hja
            · obtain ⟨rfl, rfl⟩ := Prod.mk.inj heq
              exact ⟨b, by simp, by rw [rowEq_upper hge]; simp⟩
            · have hlt : j0 < j := hasc.1 _ hja
              refine ⟨a, List.mem_cons_of_mem _ hja, ?_⟩
              rw [rowEq_upper hge, if_neg (by omega), if_neg (by omega)]
        · simp only [ne_eq, hji, not_false_iff, if_true] at h
          cases h

/-- Completeness: if factors for the row exist, the elimination finds them. -/
theorem elim_complete {rows : Nat → Row R} {piv dinv : Nat → R} {i : Nat} (H : Finished rows piv dinv i) (I : BlockInv R)
    (p : R) : ∀ (tail rest : Row R) (fin : List (Nat × R)), rest.Asc → tail.map Prod.fst = rest.map Prod.fst →
      (∃ f, (i, f) ∈ tail ∧ p * f = 1 ∧ f * p = 1) →
      (∀ j a f, (j, a) ∈ rest → (j, f) ∈ tail → RowEq rows piv i p tail j a f) →
      elimRow I rows i fin rest = .ok (fin ++ tail) := by
  intro tail
  induction tail with
  | nil => rintro rest fin _ _ ⟨f, h, _⟩; simp at h
  | cons t tail ih =>
    obtain ⟨j0, f0⟩ := t
    intro rest fin hasc hcols hdiag heq
    match rest, hcols with
    | (j1, a0) :: rest, hcols =>
      simp only [List.map_cons, List.cons.injEq] at hcols
      obtain ⟨rfl, hcols⟩ := hcols
      have hasc' := hasc
      rw [asc_cons] at hasc
      have htail : ∀ e ∈ tail, j0 < e.1 := by
        intro e he
        have : e.1 ∈ rest.map Prod.fst := hcols ▸ List.mem_map_of_mem he
        obtain ⟨x, hx, hxe⟩ := List.mem_map.mp this
        have := hasc.1 x hx; simp at this; omega
      have hge : ∀ e ∈ (j0, f0) :: tail, j0 ≤ e.1 := by
        intro e he
        rcases List.mem_cons.mp he with rfl | he
        · exact le_refl _
        · exact le_of_lt (htail e he)
      have hfirst := (rowEq_first hge).mp (heq j0 a0 f0 (by simp) (by simp))
      by_cases hj : j0 < i
      · rw [if_pos hj] at hfirst
        have hl : a0 * dinv j0 = f0 := by rw [hfirst, mul_assoc, (H j0 hj).2.2.1, mul_one]
        rw [elim_step H I fin a0 rest hj hasc', hl]
        rw [ih _ (fin ++ [(j0, f0)]) (asc_map hasc.2 _) (by simp only [List.map_map]; exact hcols)]
        · simp
        · obtain ⟨f, h1, h2⟩ := hdiag
          rcases List.mem_cons.mp h1 with h | h
          · have := (Prod.mk.inj h).1; omega
          · exact ⟨f, h, h2⟩
        · intro j a f hja hjf
          obtain ⟨⟨x1, x2⟩, hx, hxe⟩ := List.mem_map.mp hja
          obtain ⟨rfl, rfl⟩ := Prod.mk.inj hxe
          have hlt : j0 < x1 := hasc.1 _ hx
          rw [← rowEq_cons hj hlt]
          exact heq x1 x2 f (List.mem_cons_of_mem _ hx) (List.mem_cons_of_mem _ hjf)
      · have hji : j0 = i := by
          obtain ⟨f, h1, -⟩ := hdiag
          rcases List.mem_cons.mp h1 with h | h
          · exact (Prod.mk.inj h).1.symm
          · have := htail _ h; simp at this; omega
        subst hji
        rw [if_neg hj, if_pos rfl] at hfirst
        subst hfirst
        have hf : a0 * f0 = 1 ∧ f0 * a0 = 1 := by
          obtain ⟨f, h1, h2⟩ := hdiag
          rcases List.mem_cons.mp h1 with h | h
          · obtain ⟨-, rfl⟩ := Prod.mk.inj h; exact h2
          · have := htail _ h; simp at this
        rw [elimRow]
        simp only [hj, if_false, ne_eq, not_true, (I.inv_iff a0 f0).mpr hf]
        have : rest = tail := by
          apply List.ext_getElem (by simpa using congrArg List.length hcols.symm)
          intro q h1 h2
          have hc : (tail.map Prod.fst)[q]'(by simpa using h2) = (rest.map Prod.fst)[q]'(by simpa using h1) := by
            simp only [hcols]
          simp only [List.getElem_map] at hc
          have hlt : j0 < rest[q].1 := hasc.1 _ (List.getElem_mem h1)
          have := heq rest[q].1 rest[q].2 tail[q].2 (List.mem_cons_of_mem _ (List.getElem_mem h1))
            (List.mem_cons_of_mem _ (by rw [← hc]; exact List.getElem_mem h2))
          rw [rowEq_upper hge, if_neg (by omega), if_neg (by omega)] at this
          exact Prod.ext hc.symm this
        rw [this]

/-- The elimination never has undefined behaviour on a row with a diagonal entry, and its only exception is the singular
pivot. -/
theorem elim_outcome {rows : Nat → Row R} {piv dinv : Nat → R} {i : Nat} (H : Finished rows piv dinv i) (I : BlockInv R)
    (k : Nat) : ∀ (rest : Row R), rest.length = k → ∀ (fin : List (Nat × R)), rest.Asc → rest.Has i →
      (∃ r', elimRow I rows i fin rest = .ok r') ∨ elimRow I rows i fin rest = .throw .matrixBlockError := by
  induction k with
  | zero =>
    rintro rest hl fin _ ⟨b, hb⟩
    obtain rfl := List.length_eq_zero_iff.mp hl
    simp at hb
  | succ k ih =>
    rintro rest hl fin hasc ⟨b, hb⟩
    match rest, hl with
    | (j0, a0) :: rest, hl =>
      have hasc' := hasc
      rw [asc_cons] at hasc
      by_cases hj : j0 < i
      · rw [elim_step H I fin a0 rest hj hasc']
        apply ih _ (by simpa using hl) _ (asc_map hasc.2 _)
        rcases List.mem_cons.mp hb with h | h
        · have := (Prod.mk.inj h).1; omega
        · exact ⟨_, List.mem_map.mpr ⟨(i, b), h, rfl⟩⟩
      · have hji : j0 = i := by
          rcases List.mem_cons.mp hb with h | h
          · exact (Prod.mk.inj h).1.symm
          · have := hasc.1 _ h; simp at this; omega
        subst hji
        rw [elimRow]
        simp only [hj, if_false, ne_eq, not_true]
        cases I.inv a0 with
        | none => exact Or.inr rfl
        | some b => exact Or.inl ⟨_, rfl⟩

/-- A row without diagonal entry is never accepted; if it has an entry right of the diagonal position the exception is
`ISTLError`, if it has none the loop runs past the end of the row. -/
theorem elim_missing {rows : Nat → Row R} {piv dinv : Nat → R} {i : Nat} (H : Finished rows piv dinv i) (I : BlockInv R)
    (k : Nat) : ∀ (rest : Row R), rest.length = k → ∀ (fin : List (Nat × R)), rest.Asc → ¬ rest.Has i →
      ((∃ e ∈ rest, i < e.1) → elimRow I rows i fin rest = .throw .istlError) ∧
      ((∀ e ∈ rest, e.1 < i) → elimRow I rows i fin rest = .ub) := by
  induction k with
  | zero =>
    intro rest hl fin _ _
    obtain rfl := List.length_eq_zero_iff.mp hl
    exact ⟨by rintro ⟨e, he, _⟩; simp at he, fun _ => by rw [elimRow]⟩
  | succ k ih =>
    intro rest hl fin hasc hno
    match rest, hl with
    | (j0, a0) :: rest, hl =>
      have hasc' := hasc
      rw [asc_cons] at hasc
      by_cases hj : j0 < i
      · rw [elim_step H I fin a0 rest hj hasc']
        obtain ⟨h1, h2⟩ := ih (rest.map fun e => (e.1, e.2 - a0 * dinv j0 * (rows j0).val e.1)) (by simpa using hl)
          (fin ++ [(j0, a0 * dinv j0)]) (asc_map hasc.2 _) (by
            rintro ⟨b, hb⟩
            obtain ⟨x, hx, hxe⟩ := List.mem_map.mp hb
            obtain ⟨h1, -⟩ := Prod.mk.inj hxe
            exact hno ⟨x.2, List.mem_cons_of_mem _ (by rw [← h1]; exact hx)⟩)
        constructor
        · rintro ⟨e, he, hlt⟩
          apply h1
          rcases List.mem_cons.mp he with rfl | he
          · simp at hlt; omega
          · exact ⟨_, List.mem_map.mpr ⟨e, he, rfl⟩, hlt⟩
        · intro hall
          apply h2
          intro e he
          obtain ⟨x, hx, rfl⟩ := List.mem_map.mp he
          exact hall x (List.mem_cons_of_mem _ hx)
      · have hji : j0 ≠ i := fun h => hno ⟨a0, by simp [h]⟩
        constructor
        · intro _
          rw [elimRow]
          simp [hj, hji]
        · intro hall
          exact absurd (hall (j0, a0) (by simp)) hj

/-- The elimination of row `i` only looks at the rows above. -/
theorem elim_congr (I : BlockInv R) {rows rows' : Nat → Row R} {i : Nat} (h : ∀ j, j < i → rows j = rows' j) (k : Nat) :
    ∀ (rest : Row R), rest.length = k → ∀ (fin : List (Nat × R)), elimRow I rows i fin rest = elimRow I rows' i fin rest := by
  induction k with
  | zero =>
    intro rest hl fin
    obtain rfl := List.length_eq_zero_iff.mp hl
    rw [elimRow, elimRow]
  | succ k ih =>
    intro rest hl fin
    match rest, hl with
    | (j0, a0) :: rest, hl =>
      rw [elimRow, elimRow]
      by_cases hj : j0 < i
      · simp only [hj, if_true, h j0 hj]
        split
        · split
          · apply ih
            rw [mergeSub_length]; simpa using hl
          · rfl
        · rfl
      · simp only [hj, if_false]

end Ilu

section UpperSolve
open Ilu
variable {R V : Type} [Ring R] [AddCommGroup V] [Module R V]

/-- The upper solve reads its right hand side from the vector it overwrites; it never reads an overwritten one. -/
theorem upperSolve_eq (F : SpMat R) (y : Nat → V) :
    upperSolve F y = Gsetc.butsolve act (fun a _ rhs => .ok (a • rhs)) F y y := by
  unfold upperSolve Gsetc.butsolve
  have key : ∀ n (v : Nat → V), (∀ i, i < n → v i = y i) →
      forDownM n (fun i v =>
        match (F.row i).reverse.dropWhile (fun e => i < e.1) with
        | [] => Res.ub
        | dg :: _ =>
          let rhs := Gsetc.residual act ((F.row i).reverse.takeWhile fun e => i < e.1) v (v i)
          .ok (upd v i (dg.2 • rhs))) v =
      forDownM n (fun i v =>
        match (F.row i).reverse.dropWhile (fun e => i < e.1) with
        | [] => Res.ub
        | dg :: _ => do
          let rhs := Gsetc.residual act ((F.row i).reverse.takeWhile fun e => i < e.1) v (y i)
          let x ← (fun a _ rhs => Res.ok (a • rhs)) dg.2 (v i) rhs
          .ok (upd v i x)) v := by
    intro n
    induction n with
    | zero => intro v _; rfl
    | succ n ih =>
      intro v hv
      rw [forDownM_succ, forDownM_succ, hv n (by omega)]
      cases (F.row n).reverse.dropWhile (fun e => n < e.1) with
      | nil => rfl
      | cons dg l =>
        simp only [Res.ok_bind]
        exact ih _ fun i hi => by rw [upd_ne _ _ (by omega)]; exact hv i (by omega)
  exact key F.n y fun _ _ => rfl

end UpperSolve
end Istl
