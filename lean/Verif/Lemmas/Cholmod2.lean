import Verif.Lemmas.Cholmod

/-! # Lemmas for the Cholmod wrapper: the index map, setMatrix and apply -/

namespace Istl
namespace Cholmod
open ForEach Ccs Umf Finset

variable {K : Type}

theorem newIndex_succ (ign : Option (NVec Bool)) (n r : Nat) :
    newIndex ign n (r + 1) = newIndex ign n r + if Keeps ign n r then 1 else 0 := by
  unfold newIndex
  rw [Finset.range_add_one, Finset.filter_insert]
  split
  · rw [Finset.card_insert_of_notMem (by simp)]
  · simp

theorem newIndex_mono (ign : Option (NVec Bool)) (n : Nat) {r r' : Nat} (h : r ≤ r') : newIndex ign n r ≤ newIndex ign n r' :=
  Finset.card_le_card (Finset.filter_subset_filter _ (Finset.range_mono h))

theorem newIndex_lt (ign : Option (NVec Bool)) (n : Nat) {r r' : Nat} (h : r < r') (hk : Keeps ign n r) :
    newIndex ign n r < newIndex ign n r' := by
  have := newIndex_mono ign n (show r + 1 ≤ r' from h)
  rw [newIndex_succ, if_pos hk] at this
  omega

theorem newIndex_inj (ign : Option (NVec Bool)) (n : Nat) {r r' : Nat} (hk : Keeps ign n r) (hk' : Keeps ign n r')
    (h : newIndex ign n r = newIndex ign n r') : r = r' := by
  rcases lt_trichotomy r r' with hl | hl | hl
  · have := newIndex_lt ign n hl hk; omega
  · exact hl
  · have := newIndex_lt ign n hl hk'; omega

theorem Keeps.lt {ign : Option (NVec Bool)} {n r : Nat} (h : Keeps ign n r) : r < n := by
  unfold Keeps at h; split at h
  · exact h
  · exact h.1

theorem newIndex_surj (ign : Option (NVec Bool)) (n : Nat) (k j : Nat) (h : j < newIndex ign n k) :
    ∃ r, r < k ∧ Keeps ign n r ∧ newIndex ign n r = j := by
  induction k with
  | zero => simp [newIndex] at h
  | succ k ih =>
    by_cases hj : j < newIndex ign n k
    · obtain ⟨r, h1, h2⟩ := ih hj; exact ⟨r, by omega, h2⟩
    · rw [newIndex_succ] at h
      by_cases hk : Keeps ign n k
      · rw [if_pos hk] at h; exact ⟨k, by omega, hk, by omega⟩
      · rw [if_neg hk] at h; omega

theorem newIndex_none (n : Nat) : ∀ r, r ≤ n → newIndex none n r = r
  | 0, _ => by simp [newIndex]
  | r + 1, h => by
    rw [newIndex_succ, newIndex_none n r (by omega), if_pos (show Keeps none n r from by unfold Keeps; omega)]

theorem newIndex_some (v : NVec Bool) (n : Nat) (h : v.leaves.length = n) :
    ∀ r, r ≤ n → newIndex (some v) n r = (v.leaves.take r).count false
  | 0, _ => by simp [newIndex]
  | r + 1, hr => by
    have hlt : r < v.leaves.length := by omega
    rw [newIndex_succ, newIndex_some v n h r (by omega), List.take_succ, List.getElem?_eq_getElem hlt, List.count_append]
    congr 1
    cases hb : v.leaves[r] with
    | true =>
      rw [if_neg (by rintro ⟨_, h⟩; rw [List.getElem?_eq_getElem hlt, hb] at h; cases h)]
      rfl
    | false =>
      rw [if_pos (show Keeps (some v) n r from ⟨by omega, by rw [List.getElem?_eq_getElem hlt, hb]⟩)]
      rfl

theorem count_both : ∀ l : List Bool, l.count true + l.count false = l.length
  | [] => rfl
  | b :: l => by have := count_both l; cases b <;> simp <;> omega

/-- number of degrees of freedom that take part -/
def dofs (ign : Option (NVec Bool)) (n : Nat) : Nat := newIndex ign n n

theorem dofs_pos {ign : Option (NVec Bool)} {n : Nat} : 0 < dofs ign n ↔ ∃ r, Keeps ign n r := by
  constructor
  · intro h
    obtain ⟨r, _, hr, _⟩ := newIndex_surj ign n n 0 h
    exact ⟨r, hr⟩
  · rintro ⟨r, hr⟩
    have := newIndex_lt ign n hr.lt hr
    unfold dofs; omega

theorem ignored_spec (ign : Option (NVec Bool)) (n : Nat) (h : Fits ign n) :
    ∃ k, ignored ign = .ok (ign.map NVec.leaves, k) ∧ (n ≤ k ↔ ¬ 0 < dofs ign n) ∧ n - k = dofs ign n := by
  cases ign with
  | none =>
    refine ⟨0, rfl, ?_, ?_⟩
    · unfold dofs; rw [newIndex_none n n le_rfl]; omega
    · unfold dofs; rw [newIndex_none n n le_rfl]; omega
  | some v =>
    have hv := h v rfl
    have hd : dofs (some v) n = v.leaves.count false := by
      unfold dofs
      rw [newIndex_some v n hv n le_rfl, ← hv, List.take_length]
    have hc := count_both v.leaves
    refine ⟨v.leaves.count true, ?_, by omega, by omega⟩
    unfold ignored
    dsimp only
    rw [flatBits_spec]
    rfl

/-- The index map that belongs to an ignore field. -/
def subOf (ign : Option (NVec Bool)) (n : Nat) : List (Option Nat) :=
  match ign with
  | none => []
  | some v => (List.range n).map fun r => if Keeps (some v) n r then some (newIndex (some v) n r) else none

theorem number_spec (o : Obj K) (ign : Option (NVec Bool)) (n : Nat) (h : Fits ign n) (hc : Clean o ign) :
    number o.sub (ign.map NVec.leaves) n = .ok (subOf ign n) := by
  cases ign with
  | none =>
    change o.sub = [] at hc
    simp [number, subOf, hc]
  | some v =>
    have hv := h v rfl
    change ∀ r : Nat, v.leaves[r]? = some true → ∀ k, o.sub[r]? ≠ some (some k) at hc
    have hres : ∀ i : Nat, i < n → v.leaves[i]? = some true → (resize o.sub n)[i]? = some none := by
      intro i hi ht
      unfold resize
      by_cases hl : i < o.sub.length
      · rw [List.getElem?_append_left (by simp; omega), List.getElem?_take_of_lt hi, List.getElem?_eq_getElem hl]
        have := hc i ht
        rw [List.getElem?_eq_getElem hl] at this
        cases hx : o.sub[i] with
        | none => rfl
        | some k => exact absurd (by rw [hx]) (this k)
      · have h1 : (o.sub.take n).length = o.sub.length := by rw [List.length_take]; omega
        rw [List.getElem?_append_right (by omega), h1, List.getElem?_replicate, if_pos (by omega)]
    have hlen : (resize o.sub n).length = n := by simp [resize]; omega
    obtain ⟨s, e, h1, h2, h3, h4⟩ := forRangeM_inv n (fun i p => subStep v.leaves i p)
      (fun k (p : List (Option Nat) × Nat) => p.1.length = n ∧ p.2 = newIndex (some v) n k ∧
        (∀ i : Nat, i < k → i < n → p.1[i]? = some (if Keeps (some v) n i then some (newIndex (some v) n i) else none)) ∧
        (∀ i : Nat, i < n → v.leaves[i]? = some true → p.1[i]? = some none))
      (resize o.sub n, 0) ⟨hlen, by simp [newIndex], by intro i hi; omega, hres⟩ (by
        rintro i ⟨l, c⟩ hi ⟨h1, h2, h3, h4⟩
        dsimp only at h1 h2 h3 h4
        have hlt : i < v.leaves.length := by omega
        cases hb : v.leaves[i] with
        | true =>
          have hnk : ¬ Keeps (some v) n i := by
            rintro ⟨_, h⟩
            rw [List.getElem?_eq_getElem hlt, hb] at h; cases h
          refine ⟨(l, c), by simp [subStep, rd_lt hlt, hb], h1, ?_, ?_, h4⟩
          · rw [newIndex_succ, if_neg hnk]; exact h2
          · intro j hj hjn
            by_cases hji : j = i
            · subst hji
              rw [if_neg hnk]
              exact h4 j hi (by rw [List.getElem?_eq_getElem hlt, hb])
            · exact h3 j (by omega) hjn
        | false =>
          have hk : Keeps (some v) n i := ⟨hi, by rw [List.getElem?_eq_getElem hlt, hb]⟩
          refine ⟨(l.set i (some c), c + 1), ?_, by simpa using h1, ?_, ?_, ?_⟩
          · simp [subStep, rd_lt hlt, hb, wr_lt _ (show i < l.length by omega)]
          · rw [newIndex_succ, if_pos hk]; omega
          · intro j hj hjn
            dsimp only
            by_cases hji : j = i
            · subst hji
              rw [List.getElem?_set_self (by omega), if_pos hk, h2]
            · rw [List.getElem?_set_ne (Ne.symm hji)]
              exact h3 j (by omega) hjn
          · intro j hj ht
            have hji : i ≠ j := by
              rintro rfl
              rw [List.getElem?_eq_getElem hlt, hb] at ht; cases ht
            dsimp only
            rw [List.getElem?_set_ne hji]
            exact h4 j hj ht)
    simp only [number, Option.map_some]
    rw [e]
    simp only [Res.ok_bind]
    congr 1
    apply List.ext_getElem?
    intro i
    unfold subOf
    dsimp only
    by_cases hi : i < n
    · rw [h3 i hi hi]; simp [hi]
    · rw [List.getElem?_eq_none (by omega), List.getElem?_eq_none (by simpa using hi)]

theorem sel_of (ign : Option (NVec Bool)) (n : Nat) (h : Fits ign n) :
    Sel (ign.map NVec.leaves) (subOf ign n) n n (dofs ign n) (fun r => decide (Keeps ign n r)) (newIndex ign n) := by
  have hpick : ∀ r, r < n → decide (Keeps ign n r) = true →
      pick (ign.map NVec.leaves) (subOf ign n) r = .ok (newIndex ign n r) := by
    intro r hr hk
    have hk := of_decide_eq_true hk
    cases ign with
    | none => rw [newIndex_none n r hr.le]; rfl
    | some v =>
      have : rd (subOf (some v) n) r = .ok (some (newIndex (some v) n r)) := by
        rw [rd_ok]
        unfold subOf
        simp [hr, hk]
      simp only [pick, Option.map_some, this, Res.ok_bind]
  refine ⟨?_, hpick, hpick, ?_, ?_⟩
  · intro r c hr hc
    cases ign with
    | none =>
      have hr' : Keeps none n r := hr
      have hc' : Keeps none n c := hc
      simp [Umf.skip, hr', hc']
    | some v =>
      have hv := h v rfl
      have hr' : r < v.leaves.length := by omega
      have hc' : c < v.leaves.length := by omega
      simp only [Umf.skip, Option.map_some, rd_lt hr', rd_lt hc', Keeps, List.getElem?_eq_getElem hr',
        List.getElem?_eq_getElem hc', Res.ok_bind, hr, hc, true_and]
      cases v.leaves[r] <;> cases v.leaves[c] <;> rfl
  · intro c hc hk
    exact newIndex_lt ign n hc (of_decide_eq_true hk)
  · intro r r' hlt hk
    exact newIndex_lt ign n hlt (of_decide_eq_true hk)

/-- The entries the library is given. -/
def Given (A : NMat K) (ign : Option (NVec Bool)) (n r c : Nat) (v : K) : Prop :=
  ∃ r' c', At A c' r' v ∧ c' ≤ r' ∧ Keeps ign n r' ∧ Keeps ign n c' ∧ r = newIndex ign n r' ∧ c = newIndex ign n c'

/-- A call that leaves something to solve. -/
theorem setMatrix_spec (v0 : Nat → K) (i0 : Nat → Nat) (A : NMat K) (n : Nat) (hA : Dim A n n) (hasc : Ascending A)
    (ign : Option (NVec Bool)) (hf : Fits ign n) (hpos : 0 < dofs ign n) :
    ∃ M, (M.N = dofs ign n ∧ M.M = dofs ign n ∧ (packed M).Represents (dofs ign n) (Given A ign n)) ∧
      ∀ o : Obj K, Clean o ign → setMatrix v0 i0 o A ign = .ok ⟨some M, false, subOf ign n, o.live + 1⟩ := by
  obtain ⟨T, hT⟩ := trav hA
  obtain ⟨k, e1, hk1, hk2⟩ := ignored_spec ign n hf
  obtain ⟨M, e2, h1, h2, h3⟩ := arrays_spec v0 i0 A n (dofs ign n) T hT hasc (ign.map NVec.leaves) (subOf ign n) _ _ (sel_of ign n hf)
  refine ⟨M, ⟨h1, h2, ?_⟩, ?_⟩
  · have hmem : ∀ r c v, (r, c, v) ∈ T.filterMap (trU (fun r => decide (Keeps ign n r)) (newIndex ign n)) ↔ Given A ign n r c v := by
      intro r c v
      rw [List.mem_filterMap]
      constructor
      · rintro ⟨⟨s, r', c'⟩, ht, h⟩
        by_cases hk : (decide (Keeps ign n r') && decide (Keeps ign n c') && decide (r' ≤ c')) = true
        · rw [trU_pos hk] at h
          simp only [Option.some.injEq, Prod.mk.injEq] at h
          obtain ⟨rfl, rfl, rfl⟩ := h
          simp only [Bool.and_eq_true, decide_eq_true_eq] at hk
          exact ⟨c', r', (hT.at_iff _ _ _).mp ht, hk.2, hk.1.2, hk.1.1, rfl, rfl⟩
        · rw [trU_neg hk] at h; cases h
      · rintro ⟨r', c', ht, hle, hr, hc, rfl, rfl⟩
        exact ⟨(v, c', r'), (hT.at_iff _ _ _).mpr ht, trU_pos (by simp [hr, hc, hle])⟩
    simpa only [hmem] using h3
  · intro o hc
    unfold setMatrix
    rw [hT.run]
    simp only [Res.ok_bind]
    rw [e1]
    simp only [Res.ok_bind]
    rw [if_neg (by omega), number_spec o ign n hf hc]
    simp only [Res.ok_bind]
    rw [countUpper_fold, Nat.zero_add, hk2, e2]
    rfl

/-- A call in which everything is ignored. -/
theorem setMatrix_zero (v0 : Nat → K) (i0 : Nat → Nat) (o : Obj K) (A : NMat K) (n : Nat) (hA : Dim A n n)
    (ign : Option (NVec Bool)) (hf : Fits ign n) (hz : ¬ 0 < dofs ign n) :
    setMatrix v0 i0 o A ign = .ok { o with nIsZero := true } := by
  obtain ⟨T, hT⟩ := trav hA
  obtain ⟨k, e1, hk1, hk2⟩ := ignored_spec ign n hf
  unfold setMatrix
  rw [hT.run]
  simp only [Res.ok_bind]
  rw [e1]
  simp only [Res.ok_bind]
  rw [if_pos (hk1.mpr hz)]

theorem clean_subOf (M : Option (Ccs.Mat K)) (z : Bool) (ign : Option (NVec Bool)) (n l : Nat) :
    Clean (⟨M, z, subOf ign n, l⟩ : Obj K) ign := by
  unfold Clean
  cases ign with
  | none => rfl
  | some v =>
    intro r hr k h
    dsimp only at h
    unfold subOf at h
    rw [List.getElem?_map] at h
    by_cases hrn : r < n
    · rw [List.getElem?_range hrn, Option.map_some, if_neg] at h
      · cases h
      · rintro ⟨_, h'⟩; rw [hr] at h'; cases h'
    · rw [List.getElem?_eq_none (by simpa using hrn)] at h; cases h

theorem clean_fresh (ign : Option (NVec Bool)) : Clean (fresh : Obj K) ign := by
  unfold Clean; cases ign <;> simp [fresh]

end Cholmod
end Istl
