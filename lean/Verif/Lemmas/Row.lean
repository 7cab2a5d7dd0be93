import Verif.Spec.Row
import Mathlib.Tactic
import Mathlib.Algebra.BigOperators.Group.List.Basic

/-! Helper lemmas about look-ups in compressed rows. -/

namespace Istl

theorem lowerBoundGo_spec_le (j : List Nat) (v : Nat) (hs : j.Pairwise (· ≤ ·)) :
    ∀ (len first : Nat), first + len ≤ j.length →
      (∀ i (h : i < j.length), i < first → j[i] < v) →
      (∀ i (h : i < j.length), first + len ≤ i → v ≤ j[i]) →
      ∃ k, lowerBoundGo j v first len = .ok k ∧ k ≤ j.length ∧
        (∀ i (h : i < j.length), i < k → j[i] < v) ∧ (∀ i (h : i < j.length), k ≤ i → v ≤ j[i]) := by
  intro len
  induction len using Nat.strong_induction_on with
  | _ len ih =>
    intro first hlen hlo hhi
    rw [lowerBoundGo]
    by_cases h0 : len = 0
    · subst h0
      refine ⟨first, by simp, by omega, hlo, ?_⟩
      simpa using hhi
    · have hmid : first + len / 2 < j.length := by omega
      simp only [h0, dif_neg, not_false_eq_true, List.getElem?_eq_getElem hmid]
      have hmono := List.pairwise_iff_getElem.mp hs
      by_cases hx : j[first + len / 2] < v
      · simp only [hx, if_true]
        apply ih _ (by omega) _ (by omega)
        · intro i h hi
          rcases Nat.lt_or_ge i (first + len / 2) with h1 | h1
          · exact lt_of_le_of_lt (hmono _ _ h hmid h1) hx
          · have : i = first + len / 2 := by omega
            subst this; exact hx
        · intro i h hi
          apply hhi i h; omega
      · simp only [hx, if_false]
        apply ih _ (by omega) _ (by omega) hlo
        intro i h hi
        rcases Nat.lt_or_ge (first + len / 2) i with h1 | h1
        · exact le_trans (not_lt.mp hx) (hmono _ _ hmid h h1)
        · have : i = first + len / 2 := by omega
          subst this; exact not_lt.mp hx

theorem lowerBoundGo_spec (j : List Nat) (v : Nat) (hs : j.Pairwise (· < ·)) :
    ∀ (len first : Nat), first + len ≤ j.length →
      (∀ i (h : i < j.length), i < first → j[i] < v) →
      (∀ i (h : i < j.length), first + len ≤ i → v ≤ j[i]) →
      ∃ k, lowerBoundGo j v first len = .ok k ∧ k ≤ j.length ∧
        (∀ i (h : i < j.length), i < k → j[i] < v) ∧ (∀ i (h : i < j.length), k ≤ i → v ≤ j[i]) :=
  lowerBoundGo_spec_le j v (hs.imp le_of_lt)

theorem lowerBound_spec (j : List Nat) (v : Nat) (hs : j.Pairwise (· < ·)) :
    ∃ k, lowerBound j j.length v = .ok k ∧ k ≤ j.length ∧
        (∀ i (h : i < j.length), i < k → j[i] < v) ∧ (∀ i (h : i < j.length), k ≤ i → v ≤ j[i]) := by
  unfold lowerBound
  exact lowerBoundGo_spec j v hs j.length 0 (by omega) (by omega) (by intro i h hi; omega)

theorem takeWhile_length_unique (j : List Nat) (v k : Nat) (hk : k ≤ j.length)
    (hlo : ∀ i (h : i < j.length), i < k → j[i] < v) (hhi : ∀ i (h : i < j.length), k ≤ i → v ≤ j[i]) :
    (j.takeWhile (· < v)).length = k := by
  have hsplit : j = j.take k ++ j.drop k := (List.take_append_drop k j).symm
  have h1 : ∀ x ∈ j.take k, decide (x < v) = true := by
    intro x hx
    obtain ⟨i, hi, rfl⟩ := List.getElem_of_mem hx
    simp only [List.length_take] at hi
    simp only [List.getElem_take, decide_eq_true_eq]
    exact hlo i (by omega) (by omega)
  conv_lhs => rw [hsplit]
  rw [List.takeWhile_append_of_pos h1]
  have h2 : (j.drop k).takeWhile (· < v) = [] := by
    cases hd : j.drop k with
    | nil => rfl
    | cons y ys =>
      have hlt : k < j.length := by
        by_contra hc
        rw [List.drop_eq_nil_of_le (by omega)] at hd
        cases hd
      have : y = j[k] := by
        have := List.drop_eq_getElem_cons hlt
        rw [hd] at this
        exact (List.cons.inj this).1
      have h3 := hhi k hlt le_rfl
      rw [List.takeWhile_cons_of_neg]
      rw [this]
      simpa using h3
  rw [h2]
  simp [hk]

/-- `std::lower_bound` on a sorted range stops behind the elements smaller than the value. -/
theorem lowerBound_eq (j : List Nat) (v : Nat) (hs : j.Pairwise (· ≤ ·)) :
    lowerBound j j.length v = .ok (j.takeWhile (· < v)).length := by
  obtain ⟨k, h1, h2, h3, h4⟩ := lowerBoundGo_spec_le j v hs j.length 0 (by omega) (by omega) (by intro i h hi; omega)
  rw [takeWhile_length_unique j v k h2 h3 h4]
  exact h1

theorem sorted_takeWhile (j : List Nat) (v : Nat) (hs : j.Pairwise (· ≤ ·)) :
    (∀ i (h : i < j.length), i < (j.takeWhile (· < v)).length → j[i] < v) ∧
    (∀ i (h : i < j.length), (j.takeWhile (· < v)).length ≤ i → v ≤ j[i]) := by
  obtain ⟨k, h1, h2, h3, h4⟩ := lowerBoundGo_spec_le j v hs j.length 0 (by omega) (by omega) (by intro i h hi; omega)
  rw [takeWhile_length_unique j v k h2 h3 h4]
  exact ⟨h3, h4⟩

/-- The same when the search starts at a position known to be early enough. -/
theorem lowerBoundGo_eq (j : List Nat) (v : Nat) (hs : j.Pairwise (· ≤ ·)) (first : Nat) (hf : first ≤ j.length)
    (hlo : ∀ i (h : i < j.length), i < first → j[i] < v) :
    lowerBoundGo j v first (j.length - first) = .ok (j.takeWhile (· < v)).length := by
  obtain ⟨k, h1, h2, h3, h4⟩ := lowerBoundGo_spec_le j v hs (j.length - first) first (by omega) hlo
    (by intro i h hi; omega)
  rw [takeWhile_length_unique j v k h2 h3 h4]
  exact h1

theorem rd_eq {α : Type} (l : List α) (i : Nat) (h : i < l.length) : rd l i = .ok l[i] := by
  simp [rd, List.getElem?_eq_getElem h]

namespace Row
variable {B : Type}

theorem Asc.nodup {r : Row B} (h : r.Asc) : (r.map Prod.fst).Nodup :=
  List.Pairwise.imp (fun h => ne_of_lt h) h

theorem Asc.unique {r : Row B} (h : r.Asc) {j : Nat} {b c : B} (hb : (j, b) ∈ r) (hc : (j, c) ∈ r) : b = c := by
  have := h.nodup
  have h2 := List.inj_on_of_nodup_map this hb hc rfl
  exact (Prod.mk.inj h2).2

/-- the two possible results of the search in a row -/
theorem search (r : Row B) (hs : r.Asc) (i : Nat) :
    (∃ k, ∃ h : k < r.length, lowerBound (r.map Prod.fst) r.length i = .ok k ∧ r[k].1 = i) ∨
    ((∀ b, (i, b) ∉ r) ∧ (lowerBound (r.map Prod.fst) r.length i = .ok r.length ∨
      ∃ k, ∃ h : k < r.length, lowerBound (r.map Prod.fst) r.length i = .ok k ∧ r[k].1 ≠ i)) := by
  obtain ⟨k, hk, hle, hlo, hhi⟩ := lowerBound_spec (r.map Prod.fst) i hs
  simp only [List.length_map] at hk hle hlo hhi
  rcases Nat.lt_or_ge k r.length with hlt | hge
  · by_cases he : r[k].1 = i
    · exact Or.inl ⟨k, hlt, hk, he⟩
    · refine Or.inr ⟨?_, Or.inr ⟨k, hlt, hk, he⟩⟩
      intro b hb
      obtain ⟨q, hq, hqe⟩ := List.getElem_of_mem hb
      rcases Nat.lt_trichotomy q k with h1 | h1 | h1
      · have := hlo q hq h1
        simp [hqe] at this
      · subst h1; simp [hqe] at he
      · have h2 := hhi k hlt le_rfl
        have h3 := List.pairwise_iff_getElem.mp hs k q (by simpa using hlt) (by simpa using hq) h1
        simp [hqe] at h2 h3
        omega
  · have hkl : k = r.length := le_antisymm hle hge
    subst hkl
    refine Or.inr ⟨?_, Or.inl hk⟩
    intro b hb
    obtain ⟨q, hq, hqe⟩ := List.getElem_of_mem hb
    have := hlo q hq hq
    simp [hqe] at this

theorem get_of_mem (r : Row B) (hs : r.Asc) {i : Nat} {b : B} (hb : (i, b) ∈ r) : r.get i = .ok b := by
  rcases search r hs i with ⟨k, hk, hlb, he⟩ | ⟨hno, _⟩
  · have hm : r[k] ∈ r := List.getElem_mem hk
    have hv : r[k].2 = b := by
      apply hs.unique (j := i) _ hb
      rw [← he]; exact hm
    simp [Row.get, hlb, rd_eq _ _ (show k < (r.map Prod.fst).length by simpa using hk), rd_eq _ _ hk, he, hv,
      Nat.ne_of_lt hk]
  · exact absurd hb (hno b)

theorem get_of_not_mem (r : Row B) (hs : r.Asc) {i : Nat} (hb : ∀ b, (i, b) ∉ r) : r.get i = .throw .istlError := by
  rcases search r hs i with ⟨k, hk, hlb, he⟩ | ⟨_, hlb | ⟨k, hk, hlb, he⟩⟩
  · exfalso
    apply hb r[k].2
    rw [← he]; exact List.getElem_mem hk
  · simp [Row.get, hlb]
  · simp [Row.get, hlb, rd_eq _ _ (show k < (r.map Prod.fst).length by simpa using hk), he, Nat.ne_of_lt hk]

theorem val_of_mem [Zero B] {r : Row B} (hs : r.Asc) {i : Nat} {b : B} (hb : (i, b) ∈ r) : r.val i = b := by
  unfold Row.val
  cases h : r.find? (fun e => e.1 == i) with
  | none =>
    have := List.find?_eq_none.mp h _ hb
    simp at this
  | some e =>
    have h1 := List.find?_some h
    have h2 := List.mem_of_find?_eq_some h
    simp at h1
    subst h1
    exact hs.unique h2 hb

theorem val_of_not_mem [Zero B] {r : Row B} {i : Nat} (hb : ∀ b, (i, b) ∉ r) : r.val i = 0 := by
  unfold Row.val
  cases h : r.find? (fun e => e.1 == i) with
  | none => rfl
  | some e =>
    have h1 := List.find?_some h
    have h2 := List.mem_of_find?_eq_some h
    simp at h1
    subst h1
    exact absurd h2 (hb _)

/-- replacing the value of an existing entry -/
theorem modify_of_mem (r : Row B) (hs : r.Asc) {i : Nat} {b : B} (hb : (i, b) ∈ r) (f : B → B) :
    r.modify i f = .ok (r.map (fun e => if e.1 = i then (e.1, f e.2) else e)) := by
  rcases search r hs i with ⟨k, hk, hlb, he⟩ | ⟨hno, _⟩
  · simp only [Row.modify, hlb, rd_eq _ _ (show k < (r.map Prod.fst).length by simpa using hk), rd_eq _ _ hk, he,
      Nat.ne_of_lt hk, wr, hk, if_true, Res.ok_bind, if_false, List.getElem_map, ne_eq, not_true]
    congr 1
    apply List.ext_getElem
    · simp
    · intro q h1 h2
      simp only [List.length_set] at h1
      rw [List.getElem_set, List.getElem_map]
      by_cases hq : k = q
      · subst hq; simp [he]
      · have : r[q].1 ≠ i := by
          intro hc
          apply hq
          have hnd := hs.nodup
          rw [List.nodup_iff_injective_get] at hnd
          have := @hnd ⟨k, by simpa using hk⟩ ⟨q, by simpa using h1⟩ (by simp [he, hc])
          simpa using this
        simp [hq, this]
  · exact absurd hb (hno b)

theorem modify_of_not_mem (r : Row B) (hs : r.Asc) {i : Nat} (hb : ∀ b, (i, b) ∉ r) (f : B → B) :
    r.modify i f = .throw .istlError := by
  rcases search r hs i with ⟨k, hk, hlb, he⟩ | ⟨_, hlb | ⟨k, hk, hlb, he⟩⟩
  · exfalso
    apply hb r[k].2
    rw [← he]; exact List.getElem_mem hk
  · simp [Row.modify, hlb]
  · simp [Row.modify, hlb, rd_eq _ _ (show k < (r.map Prod.fst).length by simpa using hk), he, Nat.ne_of_lt hk]

/-- Sum over all columns of a function of the mathematical value equals the sum over stored entries. -/
theorem sum_val [Zero B] {M : Type*} [AddCommMonoid M] (r : Row B) (hs : r.Asc) (m : Nat) (hm : ∀ e ∈ r, e.1 < m)
    (f : Nat → B → M) (hf : ∀ j, f j 0 = 0) :
    ∑ j ∈ Finset.range m, f j (r.val j) = (r.map (fun e => f e.1 e.2)).sum := by
  classical
  have hnd := hs.nodup
  have h1 : (r.map (fun e => f e.1 e.2)).sum = ((r.map Prod.fst).map (fun j => f j (r.val j))).sum := by
    rw [List.map_map]
    congr 1
    apply List.map_congr_left
    intro e he
    simp [val_of_mem hs (show (e.1, e.2) ∈ r from he)]
  rw [h1, ← List.sum_toFinset _ hnd]
  symm
  apply Finset.sum_subset
  · intro j hj
    simp at hj
    obtain ⟨b, hb⟩ := hj
    simpa using hm _ hb
  · intro j _ hj
    have : ∀ b, (j, b) ∉ r := by
      intro b hb
      apply hj
      simp
      exact ⟨b, hb⟩
    rw [val_of_not_mem this, hf]

end Row
end Istl
