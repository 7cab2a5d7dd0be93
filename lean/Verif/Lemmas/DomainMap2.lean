import Verif.Lemmas.DomainMap

/-! # Lemmas: the loops of `getDomain` -/

namespace Istl
namespace Par
open Amg

/-- Bookkeeping of both loops: `assigned` marks exactly the processes in use, and no process is used twice. -/
structure InUse (npes nparts : Nat) (mp : List (Option Nat)) (as : List Bool) : Prop where
  ml : mp.length = nparts
  al : as.length = npes
  asg : ∀ j : Nat, as[j]? = some true ↔ ∃ i : Nat, mp[i]? = some (some j)
  inj : ∀ i i' j : Nat, mp[i]? = some (some j) → mp[i']? = some (some j) → i = i'

theorem InUse.put {npes nparts : Nat} {mp : List (Option Nat)} {as : List Bool} (h : InUse npes nparts mp as) {i j : Nat}
    (hi : mp[i]? = some none) (hj : as[j]? = some false) : InUse npes nparts (mp.set i (some j)) (as.set j true) := by
  have hil : i < mp.length := (List.getElem?_eq_some_iff.1 hi).1
  have hjl : j < as.length := (List.getElem?_eq_some_iff.1 hj).1
  have hget : ∀ x : Nat, (mp.set i (some j))[x]? = if i = x then some (some j) else mp[x]? := fun x => by
    rw [List.getElem?_set]
    by_cases hx : i = x
    · subst hx; simp [hil]
    · simp [hx]
  have hnew : ∀ x : Nat, mp[x]? ≠ some (some j) := fun x hx => by
    have := (h.asg j).2 ⟨x, hx⟩
    rw [hj] at this
    exact absurd (Option.some.inj this) (by decide)
  refine ⟨by simpa using h.ml, by simpa using h.al, fun j' => ?_, fun x y j' hx hy => ?_⟩
  · rw [List.getElem?_set]
    by_cases hjj : j = j'
    · subst hjj
      simp only [if_true, hjl]
      exact ⟨fun _ => ⟨i, by rw [hget, if_pos rfl]⟩, fun _ => trivial⟩
    · rw [if_neg hjj, h.asg]
      constructor
      · rintro ⟨x, hx⟩
        refine ⟨x, ?_⟩
        rw [hget, if_neg]
        · exact hx
        · rintro rfl; rw [hi] at hx; exact absurd (Option.some.inj hx) (by simp)
      · rintro ⟨x, hx⟩
        rw [hget] at hx
        by_cases hix : i = x
        · rw [if_pos hix] at hx
          exact absurd (Option.some.inj (Option.some.inj hx)) hjj
        · rw [if_neg hix] at hx; exact ⟨x, hx⟩
  · rw [hget] at hx hy
    by_cases hix : i = x
    · rw [if_pos hix] at hx
      have hjj := Option.some.inj (Option.some.inj hx)
      subst hjj
      by_cases hiy : i = y
      · omega
      · rw [if_neg hiy] at hy
        exact absurd hy (hnew y)
    · rw [if_neg hix] at hx
      by_cases hiy : i = y
      · rw [if_pos hiy] at hy
        have hjj := Option.some.inj (Option.some.inj hy)
        subst hjj
        exact absurd hx (hnew x)
      · rw [if_neg hiy] at hy
        exact h.inj x y j' hx hy

theorem count_set_true {as : List Bool} {j : Nat} (hj : as[j]? = some false) : (as.set j true).count true = as.count true + 1 := by
  obtain ⟨hl, he⟩ := List.getElem?_eq_some_iff.1 hj
  rw [List.count_set hl, he]
  simp

/-- What the first loop has reached after `k` domains. -/
structure DomInv (npes nparts : Nat) (cnt : Nat → Nat → Nat) (k : Nat) (mp : List (Option Nat)) (as : List Bool) (un : List Nat) : Prop where
  used : InUse npes nparts mp as
  rest : ∀ i : Nat, k ≤ i → i < nparts → mp[i]? = some none
  num : as.count true + un.length = k
  pend : ∀ i : Nat, i ∈ un ↔ i < k ∧ mp[i]? = some none
  nodup : un.Nodup
  pref : ∀ i j : Nat, mp[i]? = some (some j) → 0 < cnt j i ∧ ∀ j', j' < npes → (∀ i', i' < i → mp[i']? ≠ some (some j')) → cnt j' i ≤ cnt j i
  zero : ∀ i ∈ un, ∀ j', j' < npes → (∀ i', i' < i → mp[i']? ≠ some (some j')) → cnt j' i = 0

/-- The matrix. -/
abbrev cntMatrix (npes nparts : Nat) (cnt : Nat → Nat → Nat) : List (Option (List Nat)) :=
  (List.range npes).map fun j => some ((List.range nparts).map fun i => cnt j i)

theorem domLoop {npes nparts : Nat} (cnt : Nat → Nat → Nat) : ∀ k, k ≤ nparts →
    ∃ mp as un, DomInv npes nparts cnt k mp as un ∧ ∀ me, ∃ mine,
      (List.range k).foldlM (domStep npes (cntMatrix npes nparts cnt) me) ⟨List.replicate nparts none, List.replicate npes false, none, []⟩ =
        Res.ok ⟨mp, as, mine, un⟩ ∧ ∀ i, mine = some i ↔ mp[i]? = some (some me) := by
  intro k
  induction k with
  | zero =>
    intro _
    have hn : ∀ (i : Nat) (x : Option Nat), (List.replicate nparts (none : Option Nat))[i]? = some x → x = none := fun i x hx =>
      (List.mem_replicate.1 (List.mem_of_getElem? hx)).2
    refine ⟨List.replicate nparts none, List.replicate npes false, [], ⟨⟨by simp, by simp, fun j => ?_, ?_⟩, ?_, ?_, ?_, by simp, ?_, by simp⟩,
      fun me => ⟨none, rfl, fun i => ?_⟩⟩
    · constructor
      · intro h
        exact absurd (List.mem_replicate.1 (List.mem_of_getElem? h)).2 (by decide)
      · rintro ⟨i, hi⟩; exact absurd (hn _ _ hi) (by simp)
    · intro i i' j hi _; exact absurd (hn _ _ hi) (by simp)
    · intro i _ hi; rw [List.getElem?_replicate, if_pos hi]
    · simp [List.count_replicate]
    · intro i; simp
    · intro i j hi; exact absurd (hn _ _ hi) (by simp)
    · constructor
      · intro h; exact absurd h (by simp)
      · intro h; exact absurd (hn _ _ h) (by simp)
  | succ k ih =>
    intro hk
    obtain ⟨mp, as, un, h, hrun⟩ := ih (by omega)
    have hmk := h.rest k (le_refl _) (by omega)
    obtain ⟨r, hr, hp⟩ := pick_ok (npes := npes) cnt (i := k) (nparts := nparts) (by omega) h.used.al
    have hfree : ∀ j', j' < npes → (∀ i', i' < k → mp[i']? ≠ some (some j')) → as[j']? = some false := by
      intro j' hj' hn
      have hjl : j' < as.length := by rw [h.used.al]; exact hj'
      cases hb : as[j'] with
      | false => rw [List.getElem?_eq_getElem hjl, hb]
      | true =>
        obtain ⟨i, hi⟩ := (h.used.asg j').1 (by rw [List.getElem?_eq_getElem hjl, hb])
        have hil : i < nparts := by rw [← h.used.ml]; exact (List.getElem?_eq_some_iff.1 hi).1
        rcases Nat.lt_or_ge i k with hik | hik
        · exact absurd hi (hn i hik)
        · rw [h.rest i hik hil] at hi; exact absurd (Option.some.inj hi) (by simp)
    cases r with
    | none =>
      refine ⟨mp, as, un ++ [k], ⟨h.used, fun i hi => h.rest i (by omega), ?_, ?_, ?_, h.pref, ?_⟩, fun me => ?_⟩
      · have := h.num; rw [List.length_append, List.length_singleton]; omega
      · intro i
        rw [List.mem_append, List.mem_singleton, h.pend]
        constructor
        · rintro (⟨a, b⟩ | rfl)
          · exact ⟨by omega, b⟩
          · exact ⟨by omega, hmk⟩
        · rintro ⟨a, b⟩
          rcases Nat.lt_or_ge i k with hik | hik
          · exact .inl ⟨hik, b⟩
          · exact .inr (by omega)
      · rw [List.nodup_append]
        refine ⟨h.nodup, by simp, fun a ha b hb => ?_⟩
        rw [List.mem_singleton] at hb
        have := ((h.pend a).1 ha).1
        omega
      · intro i hi j' hj' hn
        rw [List.mem_append, List.mem_singleton] at hi
        rcases hi with hi | rfl
        · exact h.zero i hi j' hj' hn
        · exact hp j' hj' (hfree j' hj' hn)
      · obtain ⟨mine, e, hm⟩ := hrun me
        refine ⟨mine, ?_, hm⟩
        rw [List.range_succ, List.foldlM_append, e, Res.ok_bind, List.foldlM_cons]
        unfold domStep
        rw [hr, Res.ok_bind]
        rfl
    | some j =>
      obtain ⟨hj, haj, hpos, hmax⟩ := hp
      have hkl : k < mp.length := by rw [h.used.ml]; omega
      have hjl : j < as.length := by rw [h.used.al]; exact hj
      have hget : ∀ x : Nat, (mp.set k (some j))[x]? = if k = x then some (some j) else mp[x]? := fun x => by
        rw [List.getElem?_set]
        by_cases hx : k = x
        · subst hx; simp [hkl]
        · simp [hx]
      have hback : ∀ i j', i ≤ k → (∀ i', i' < i → (mp.set k (some j))[i']? ≠ some (some j')) → ∀ i', i' < i → mp[i']? ≠ some (some j') := by
        intro i j' hik hn i' hi' hx
        refine hn i' hi' ?_
        rw [hget, if_neg (by omega)]; exact hx
      refine ⟨mp.set k (some j), as.set j true, un, ⟨h.used.put hmk haj, ?_, ?_, ?_, h.nodup, ?_, ?_⟩, fun me => ?_⟩
      · intro i hi hin
        rw [hget, if_neg (by omega)]
        exact h.rest i (by omega) hin
      · rw [count_set_true haj]; have := h.num; omega
      · intro i
        rw [h.pend, hget]
        constructor
        · rintro ⟨a, b⟩; exact ⟨by omega, by rw [if_neg (by omega)]; exact b⟩
        · rintro ⟨a, b⟩
          by_cases hki : k = i
          · rw [if_pos hki] at b; exact absurd (Option.some.inj b) (by simp)
          · rw [if_neg hki] at b; exact ⟨by omega, b⟩
      · intro i j0 hi
        rw [hget] at hi
        by_cases hki : k = i
        · subst hki
          rw [if_pos rfl] at hi
          obtain rfl := Option.some.inj (Option.some.inj hi)
          refine ⟨hpos, fun j' hj' hn => hmax j' hj' (hfree j' hj' (hback k j' (le_refl _) hn))⟩
        · rw [if_neg hki] at hi
          have hik : i < k := by
            rcases Nat.lt_or_ge i k with hlt | hge
            · exact hlt
            · have hil : i < nparts := by rw [← h.used.ml]; exact (List.getElem?_eq_some_iff.1 hi).1
              rw [h.rest i hge hil] at hi; exact absurd (Option.some.inj hi) (by simp)
          obtain ⟨a, b⟩ := h.pref i j0 hi
          exact ⟨a, fun j' hj' hn => b j' hj' (hback i j' (by omega) hn)⟩
      · intro i hi j' hj' hn
        have hik := ((h.pend i).1 hi).1
        exact h.zero i hi j' hj' (hback i j' (by omega) hn)
      · obtain ⟨mine, e, hm⟩ := hrun me
        refine ⟨if j = me then some k else mine, ?_, fun i => ?_⟩
        · rw [List.range_succ, List.foldlM_append, e, Res.ok_bind, List.foldlM_cons]
          unfold domStep
          rw [hr, Res.ok_bind]
          dsimp only
          rw [wr_lt _ hkl, Res.ok_bind, wr_lt _ hjl, Res.ok_bind]
          rfl
        · rw [hget]
          by_cases hjm : j = me
          · subst hjm
            rw [if_pos rfl]
            constructor
            · intro hx
              obtain rfl := Option.some.inj hx
              rw [if_pos rfl]
            · intro hx
              by_cases hki : k = i
              · rw [hki]
              · rw [if_neg hki] at hx
                have := (h.used.asg j).2 ⟨i, hx⟩
                rw [haj] at this
                exact absurd (Option.some.inj this) (by decide)
          · rw [if_neg hjm, hm]
            constructor
            · intro hx
              rw [if_neg]
              · exact hx
              · rintro rfl; rw [hmk] at hx; exact absurd (Option.some.inj hx) (by simp)
            · intro hx
              by_cases hki : k = i
              · rw [if_pos hki] at hx
                exact absurd (Option.some.inj (Option.some.inj hx)) hjm
              · rw [if_neg hki] at hx; exact hx

/-! ## The second loop -/

theorem findFree_ok {as : List Bool} {nf : Nat} (hb : ∀ j, j < nf → as[j]? = some true) (hc : as.count true < as.length) :
    ∃ k, findFree as nf = .ok k ∧ as[k]? = some false ∧ ∀ j, j < k → as[j]? = some true := by
  have hex : ∃ j : Nat, as[j]? = some false := by
    by_contra hno
    have : as.count true = as.length := by
      rw [List.count_eq_length]
      intro b hb'
      obtain ⟨j, hj⟩ := List.mem_iff_getElem?.1 hb'
      cases b with
      | true => rfl
      | false => exact absurd ⟨j, hj⟩ hno
    omega
  obtain ⟨j, hj⟩ := hex
  have hnj : nf ≤ j := by
    by_contra hh
    have := hb j (by omega)
    rw [hj] at this
    exact absurd (Option.some.inj this) (by decide)
  unfold findFree
  cases hf : (as.drop nf).findIdx? (fun b => !b) with
  | none =>
    rw [List.findIdx?_eq_none_iff] at hf
    have := hf false (List.mem_iff_getElem?.2 ⟨j - nf, by rw [List.getElem?_drop, Nat.add_sub_cancel' hnj]; exact hj⟩)
    simp at this
  | some k =>
    rw [List.findIdx?_eq_some_iff_getElem] at hf
    obtain ⟨hl, h1, h2⟩ := hf
    refine ⟨nf + k, rfl, ?_, fun i hi => ?_⟩
    · rw [← List.getElem?_drop, List.getElem?_eq_getElem hl]
      cases hv : (as.drop nf)[k] with
      | true => rw [hv] at h1; simp at h1
      | false => rfl
    · rcases Nat.lt_or_ge i nf with hlt | hge
      · exact hb i hlt
      · have := h2 (i - nf) (by omega)
        have hil : i - nf < (as.drop nf).length := by omega
        have hx : as[i]? = (as.drop nf)[i - nf]? := by rw [List.getElem?_drop, Nat.add_sub_cancel' hge]
        rw [hx, List.getElem?_eq_getElem hil]
        cases hv : (as.drop nf)[i - nf] with
        | true => rfl
        | false => simp only [hv] at this; simp at this

theorem freeLoop {npes nparts : Nat} : ∀ (un : List Nat) (nf : Nat) (mp : List (Option Nat)) (as : List Bool), InUse npes nparts mp as → un.Nodup →
    (∀ u ∈ un, mp[u]? = some none) → as.count true + un.length ≤ npes → (∀ j, j < nf → as[j]? = some true) →
    ∃ mp' as' nf', (∀ mine un', un.foldlM freeStep (nf, ⟨mp, as, mine, un'⟩) = Res.ok (nf', ⟨mp', as', mine, un'⟩)) ∧ InUse npes nparts mp' as' ∧
      (∀ i : Nat, i ∉ un → mp'[i]? = mp[i]?) ∧ ∀ u ∈ un, ∃ j, mp'[u]? = some (some j) ∧ as[j]? = some false := by
  intro un
  induction un with
  | nil => intro nf mp as h _ _ _ _; exact ⟨mp, as, nf, fun _ _ => rfl, h, fun _ _ => rfl, by simp⟩
  | cons u un ih =>
    intro nf mp as h hnd hun hc hb
    rw [List.length_cons] at hc
    obtain ⟨k, hk, hak, hbk⟩ := findFree_ok hb (by rw [h.al]; omega)
    have hu := hun u (List.mem_cons_self ..)
    have hul : u < mp.length := (List.getElem?_eq_some_iff.1 hu).1
    have hkl : k < as.length := (List.getElem?_eq_some_iff.1 hak).1
    have hnd' := List.nodup_cons.1 hnd
    have hne : ∀ x ∈ un, u ≠ x := fun x hx hux => hnd'.1 (hux ▸ hx)
    obtain ⟨mp', as', nf', h1, h2, h3, h4⟩ := ih k (mp.set u (some k)) (as.set k true) (h.put hu hak) hnd'.2
      (fun x hx => by rw [List.getElem?_set_ne (hne x hx)]; exact hun x (List.mem_cons_of_mem _ hx))
      (by rw [count_set_true hak]; omega)
      (fun j hj => by rw [List.getElem?_set_ne (by omega)]; exact hbk j hj)
    refine ⟨mp', as', nf', fun mine un' => ?_, h2, fun i hi => ?_, fun x hx => ?_⟩
    · rw [List.foldlM_cons]
      unfold freeStep
      dsimp only
      rw [hk, Res.ok_bind, wr_lt _ hul, Res.ok_bind, wr_lt _ hkl, Res.ok_bind, Res.ok_bind]
      exact h1 mine un'
    · rw [List.mem_cons, not_or] at hi
      rw [h3 i hi.2, List.getElem?_set_ne (fun hh => hi.1 hh.symm)]
    · rcases List.mem_cons.1 hx with rfl | hx
      · refine ⟨k, ?_, hak⟩
        rw [h3 x hnd'.1, List.getElem?_set_self hul]
      · obtain ⟨j, a, b⟩ := h4 x hx
        refine ⟨j, a, ?_⟩
        by_cases hkj : k = j
        · subst hkj
          rw [List.getElem?_set_self hkl] at b
          exact absurd (Option.some.inj b) (by decide)
        · rwa [List.getElem?_set_ne hkj] at b

end Par
end Istl
