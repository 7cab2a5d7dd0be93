import Verif.Model.DomainMap
import Verif.Lemmas.GraphRepart3

/-! # Lemmas: `getDomain` -/

namespace Istl
namespace Par
open Amg

/-! ## Counting -/

theorem countFold {nparts : Nat} : ∀ (part : List Nat) (d : List Nat), d.length = nparts → (∀ x ∈ part, x < nparts) →
    ∃ r, part.foldlM (fun d x => do
        let c ← rd d x
        wr d x (c + 1)) d = Res.ok r ∧ r.length = nparts ∧ ∀ i c, d[i]? = some c → r[i]? = some (c + part.count i) := by
  intro part
  induction part with
  | nil => intro d hd _; exact ⟨d, rfl, hd, fun i c h => by simpa using h⟩
  | cons x part ih =>
    intro d hd hx
    have hxlt : x < d.length := by rw [hd]; exact hx x (List.mem_cons_self ..)
    obtain ⟨r, e, h1, h2⟩ := ih (d.set x (d[x] + 1)) (by simpa using hd) fun y hy => hx y (List.mem_cons_of_mem _ hy)
    refine ⟨r, ?_, h1, fun i c hc => ?_⟩
    · rw [List.foldlM_cons, rd_lt hxlt, Res.ok_bind, wr_lt _ hxlt, Res.ok_bind]
      exact e
    · by_cases hi : x = i
      · subst hi
        have hdx : d[x]? = some d[x] := List.getElem?_eq_getElem hxlt
        rw [hdx] at hc
        obtain rfl := Option.some.inj hc
        rw [h2 x (d[x] + 1) (by rw [List.getElem?_set_self hxlt]), List.count_cons_self]
        congr 1; omega
      · rw [h2 i c (by rw [List.getElem?_set_ne hi]; exact hc), List.count_cons_of_ne hi]

theorem countDomains_ok {nparts : Nat} {part : List Nat} (h : ∀ x ∈ part, x < nparts) :
    countDomains nparts part = .ok ((List.range nparts).map fun i => part.count i) := by
  obtain ⟨r, e, h1, h2⟩ := countFold part (List.replicate nparts 0) (by simp) h
  unfold countDomains
  rw [e]
  congr 1
  refine List.ext_getElem? fun i => ?_
  by_cases hi : i < nparts
  · rw [h2 i 0 (by rw [List.getElem?_replicate, if_pos hi]), List.getElem?_map, List.getElem?_range hi]
    simp
  · rw [List.getElem?_eq_none (by omega), List.getElem?_eq_none (by simp; omega)]

/-! ## The ring -/

theorem ringBuf_eq {npes : Nat} (h0 : 0 < npes) (rows : Nat → List Nat) : ∀ i p, p < npes →
    ringBuf npes rows i p = rows ((p + i * (npes - 1)) % npes) := by
  intro i
  induction i with
  | zero => intro p hp; simp [ringBuf, Nat.mod_eq_of_lt hp]
  | succ i ih =>
    intro p hp
    rw [ringBuf, ih _ (Nat.mod_lt _ h0), Nat.mod_add_mod]
    congr 2
    have : p + npes - 1 = p + (npes - 1) := by omega
    rw [this, Nat.succ_mul]
    ring

theorem ring_row {npes : Nat} (h0 : 0 < npes) (rows : Nat → List Nat) {i p : Nat} (hp : p < npes) (hi : i + 1 < npes + 1) :
    ringBuf npes rows (i + 1) p = rows ((p + npes - 1 - i) % npes) := by
  rw [ringBuf_eq h0 rows _ p hp]
  congr 1
  obtain ⟨m, rfl⟩ : ∃ m, npes = m + 1 := ⟨npes - 1, by omega⟩
  have : p + (i + 1) * (m + 1 - 1) = (p + (m + 1) - 1 - i) + (m + 1) * i := by
    have e1 : (i + 1) * (m + 1 - 1) = i * m + m := by rw [Nat.add_sub_cancel]; ring
    have e2 : (m + 1) * i = i * m + i := by ring
    rw [e1, e2]
    omega
  rw [this, Nat.add_mul_mod_self_left]

/-- After the ring communication every process has the rows of all processes. -/
theorem domainMatrix_ok {npes : Nat} (rows : Nat → List Nat) {p : Nat} (hp : p < npes) :
    domainMatrix npes rows p = .ok ((List.range npes).map fun j => some (rows j)) := by
  have h0 : 0 < npes := by omega
  have key : ∀ k, k ≤ npes - 1 → ∃ M, (List.range k).foldlM (fun M i => wr M ((p + npes - 1 - i) % npes) (some (ringBuf npes rows (i + 1) p)))
      ((List.replicate npes none).set p (some (rows p))) = Res.ok M ∧ M.length = npes ∧
      (∀ j x, M[j]? = some x → x = none ∨ x = some (rows j)) ∧ M[p]? = some (some (rows p)) ∧
      ∀ i, i < k → M[(p + npes - 1 - i) % npes]? = some (some (rows ((p + npes - 1 - i) % npes))) := by
    intro k
    induction k with
    | zero =>
      intro _
      refine ⟨_, rfl, by simp, fun j x hx => ?_, ?_, fun i hi => by omega⟩
      · by_cases hj : p = j
        · subst hj
          rw [List.getElem?_set_self (by simpa using hp)] at hx
          exact .inr (Option.some.inj hx).symm
        · rw [List.getElem?_set_ne hj, List.getElem?_replicate] at hx
          split at hx
          · exact .inl (Option.some.inj hx).symm
          · cases hx
      · rw [List.getElem?_set_self (by simpa using hp)]
    | succ k ih =>
      intro hk
      obtain ⟨M, e, h1, h2, h3, h4⟩ := ih (by omega)
      have hlt : (p + npes - 1 - k) % npes < M.length := by rw [h1]; exact Nat.mod_lt _ h0
      have hset : ∀ j x, (M.set ((p + npes - 1 - k) % npes) (some (rows ((p + npes - 1 - k) % npes))))[j]? = some x → x = none ∨ x = some (rows j) := by
        intro j x hx
        by_cases hj : (p + npes - 1 - k) % npes = j
        · subst hj
          rw [List.getElem?_set_self hlt] at hx
          exact .inr (Option.some.inj hx).symm
        · rw [List.getElem?_set_ne hj] at hx
          exact h2 j x hx
      have hkeep : ∀ j, M[j]? = some (some (rows j)) →
          (M.set ((p + npes - 1 - k) % npes) (some (rows ((p + npes - 1 - k) % npes))))[j]? = some (some (rows j)) := by
        intro j hj
        by_cases hjj : (p + npes - 1 - k) % npes = j
        · subst hjj; rw [List.getElem?_set_self hlt]
        · rw [List.getElem?_set_ne hjj]; exact hj
      refine ⟨M.set ((p + npes - 1 - k) % npes) (some (rows ((p + npes - 1 - k) % npes))), ?_, by simpa using h1, hset, hkeep p h3, fun i hi => ?_⟩
      · rw [List.range_succ, List.foldlM_append, e, Res.ok_bind, List.foldlM_cons, wr_lt _ hlt, Res.ok_bind, ring_row h0 rows hp (by omega)]
        rfl
      · by_cases hik : i = k
        · subst hik; rw [List.getElem?_set_self hlt]
        · exact hkeep _ (h4 i (by omega))
  obtain ⟨M, e, h1, h2, h3, h4⟩ := key (npes - 1) (le_refl _)
  unfold domainMatrix
  rw [wr_lt _ (by simpa using hp), Res.ok_bind, e]
  congr 1
  refine List.ext_getElem? fun j => ?_
  by_cases hj : j < npes
  · rw [List.getElem?_map, List.getElem?_range hj, Option.map_some]
    by_cases hjp : j = p
    · subst hjp; exact h3
    · rcases Nat.lt_or_ge j p with hlt | hge
      · have := h4 (p - 1 - j) (by omega)
        have e1 : (p + npes - 1 - (p - 1 - j)) % npes = j := by
          have : p + npes - 1 - (p - 1 - j) = j + npes := by omega
          rw [this, Nat.add_mod_right, Nat.mod_eq_of_lt hj]
        rwa [e1] at this
      · have := h4 (p + npes - 1 - j) (by omega)
        have e1 : (p + npes - 1 - (p + npes - 1 - j)) % npes = j := by
          have : p + npes - 1 - (p + npes - 1 - j) = j := by omega
          rw [this, Nat.mod_eq_of_lt hj]
        rwa [e1] at this
  · rw [List.getElem?_eq_none (by omega), List.getElem?_eq_none (by simp; omega)]

/-! ## The search for the largest number -/

/-- What `pick` returns. -/
def PickOk (npes : Nat) (cnt : Nat → Nat) (assigned : List Bool) : Option Nat → Prop
  | none => ∀ j, j < npes → assigned[j]? = some false → cnt j = 0
  | some j => j < npes ∧ assigned[j]? = some false ∧ 0 < cnt j ∧ ∀ j', j' < npes → assigned[j']? = some false → cnt j' ≤ cnt j

theorem pick_ok {npes nparts : Nat} (cnt : Nat → Nat → Nat) {i : Nat} (hi : i < nparts) {assigned : List Bool} (ha : assigned.length = npes) :
    ∃ r, pick npes ((List.range npes).map fun j => some ((List.range nparts).map fun i => cnt j i)) i assigned = .ok r ∧
      PickOk npes (fun j => cnt j i) assigned r := by
  have key : ∀ k, k ≤ npes → ∃ s, (List.range k).foldlM (pickStep ((List.range npes).map fun j => some ((List.range nparts).map fun i => cnt j i)) i
      assigned) (0, none) = Res.ok s ∧ (∀ j, j < k → assigned[j]? = some false → cnt j i ≤ s.1) ∧
      (match s.2 with | none => s.1 = 0 | some j => j < npes ∧ assigned[j]? = some false ∧ s.1 = cnt j i ∧ 0 < s.1) := by
    intro k
    induction k with
    | zero => intro _; exact ⟨(0, none), rfl, fun j hj => by omega, rfl⟩
    | succ k ih =>
      intro hk
      obtain ⟨s, e, h1, h2⟩ := ih (by omega)
      have hkl : k < assigned.length := by omega
      have hrow : ((List.range npes).map fun j => some ((List.range nparts).map fun i => cnt j i))[k]? =
          some (some ((List.range nparts).map fun i => cnt k i)) := by
        rw [List.getElem?_map, List.getElem?_range (by omega)]; rfl
      have hc : ((List.range nparts).map fun i => cnt k i)[i]? = some (cnt k i) := by
        rw [List.getElem?_map, List.getElem?_range hi]; rfl
      have hget : assigned[k]? = some assigned[k] := List.getElem?_eq_getElem hkl
      have hstep : pickStep ((List.range npes).map fun j => some ((List.range nparts).map fun i => cnt j i)) i assigned s k =
          .ok (if assigned[k] = false ∧ s.1 < cnt k i then (cnt k i, some k) else s) := by
        unfold pickStep
        rw [rd_lt hkl, Res.ok_bind, rd_ok.2 hrow, Res.ok_bind]
        dsimp only
        rw [rd_ok.2 hc, Res.ok_bind]
      refine ⟨if assigned[k] = false ∧ s.1 < cnt k i then (cnt k i, some k) else s, ?_, ?_, ?_⟩
      · rw [List.range_succ, List.foldlM_append, e, Res.ok_bind, List.foldlM_cons, hstep, Res.ok_bind]
        rfl
      · intro j hj haj
        by_cases hjk : j = k
        · subst hjk
          rw [hget] at haj
          have haj := Option.some.inj haj
          by_cases hlt : s.1 < cnt j i
          · rw [if_pos ⟨haj, hlt⟩]
          · rw [if_neg fun hh => hlt hh.2]; omega
        · have := h1 j (by omega) haj
          split
          · dsimp only; omega
          · exact this
      · by_cases hh : assigned[k] = false ∧ s.1 < cnt k i
        · rw [if_pos hh]
          exact ⟨by omega, by rw [hget, hh.1], rfl, by dsimp only; omega⟩
        · rw [if_neg hh]
          cases hs : s.2 with
          | none => rw [hs] at h2; exact h2
          | some j => rw [hs] at h2; exact ⟨by omega, h2.2⟩
  obtain ⟨s, e, h1, h2⟩ := key npes (le_refl _)
  refine ⟨s.2, ?_, ?_⟩
  · unfold pick
    rw [e, Res.ok_bind]
  · cases hs : s.2 with
    | none =>
      rw [hs] at h2
      intro j hj haj
      have := h1 j hj haj
      dsimp only at h2 ⊢
      omega
    | some j =>
      rw [hs] at h2
      dsimp only at h2
      refine ⟨h2.1, h2.2.1, by dsimp only; omega, fun j' hj' haj' => ?_⟩
      have := h1 j' hj' haj'
      dsimp only
      omega

end Par
end Istl
