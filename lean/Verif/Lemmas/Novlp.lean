import Verif.Model.Schwarz
import Verif.Spec.Schwarz
import Verif.Lemmas.Vec
import Verif.Lemmas.SpMat
import Verif.Props.C36

/-! Local part of the nonoverlapping operator. -/

namespace Istl
namespace Par

/-- The mask value of an attribute. -/
def code : Attr → Nat
  | .owner => 1
  | .copy => 0
  | .overlap => 2

theorem novMask_fold (l : PIS) (m : List Nat) (hb : ∀ e ∈ l, e.loc < m.length) (hn : (l.map fun e => e.loc).Nodup)
    (h1 : ∀ i, i < m.length → (∀ e ∈ l, e.loc = i → m[i]? = some 1)) :
    ∃ m', l.foldlM (fun m e => if e.attr = .copy then wr m e.loc 0 else if e.attr = .overlap then wr m e.loc 2 else .ok m) m = .ok m' ∧
      m'.length = m.length ∧ (∀ e ∈ l, m'[e.loc]? = some (code e.attr)) ∧ ∀ i, (∀ e ∈ l, e.loc ≠ i) → m'[i]? = m[i]? := by
  induction l generalizing m with
  | nil => exact ⟨m, rfl, rfl, by simp, by simp⟩
  | cons e l ih =>
    have he := hb e (List.mem_cons_self ..)
    rw [List.map_cons, List.nodup_cons] at hn
    have hne : ∀ f ∈ l, f.loc ≠ e.loc := fun f hf h => hn.1 (List.mem_map.2 ⟨f, hf, h⟩)
    have step : ∃ m1 : List Nat, (if e.attr = .copy then wr m e.loc 0 else if e.attr = .overlap then wr m e.loc 2 else .ok m) = .ok m1 ∧
        m1.length = m.length ∧ m1[e.loc]? = some (code e.attr) ∧ ∀ i, i ≠ e.loc → m1[i]? = m[i]? := by
      cases h : e.attr
      · exact ⟨m, by simp, rfl, h1 e.loc he e (List.mem_cons_self ..) rfl, fun _ _ => rfl⟩
      · exact ⟨m.set e.loc 2, by simp [wr_lt _ he], by simp, by simp [he, code],
          fun i hi => by rw [List.getElem?_set, if_neg (fun h => hi h.symm)]⟩
      · exact ⟨m.set e.loc 0, by simp [wr_lt _ he], by simp, by simp [he, code],
          fun i hi => by rw [List.getElem?_set, if_neg (fun h => hi h.symm)]⟩
    obtain ⟨m1, s1, s2, s3, s4⟩ := step
    obtain ⟨m', t1, t2, t3, t4⟩ := ih m1 (fun f hf => by rw [s2]; exact hb f (List.mem_cons_of_mem _ hf)) hn.2
      (fun i hi f hf hfi => by
        rw [s4 i (by rw [← hfi]; exact hne f hf)]
        exact h1 i (by rw [s2] at hi; exact hi) f (List.mem_cons_of_mem _ hf) hfi)
    refine ⟨m', ?_, t2.trans s2, ?_, ?_⟩
    · rw [List.foldlM_cons, s1]; exact t1
    · intro f hf
      rcases List.mem_cons.1 hf with rfl | hf
      · rw [t4 _ hne, s3]
      · exact t3 f hf
    · intro i hi
      rw [t4 i fun f hf => hi f (List.mem_cons_of_mem _ hf), s4 i (fun h => hi e (List.mem_cons_self ..) h.symm)]

theorem novMask_ok {pis : PIS} (hok : PisOk pis) (n : Nat) (hb : ∀ e ∈ pis, e.loc < n) :
    ∃ m, novMask pis [] n = .ok m ∧ m.length = n ∧ ∀ e ∈ pis, m[e.loc]? = some (code e.attr) := by
  unfold novMask
  by_cases hn : n = 0
  · subst hn
    refine ⟨[], by simp, rfl, fun e he => ?_⟩
    exact absurd (hb e he) (by omega)
  · rw [if_pos (by simpa using fun h => hn h.symm)]
    obtain ⟨m', h1, h2, h3, -⟩ := novMask_fold pis (List.replicate n 1) (by simpa using hb) hok.locs
      (fun i hi _ _ _ => by
        rw [List.length_replicate] at hi
        rw [List.getElem?_replicate, if_pos hi])
    exact ⟨m', h1, by simpa using h2, h3⟩

/-! ### What the other processes know -/

theorem riStep_known (i q : Nat) (l : List (Nat × Attr)) (s : RiMap) (x : Nat × Nat × Attr) :
    x ∈ (l.foldl (riStep i q) s).known ↔ x ∈ s.known ∨ x.1 = i ∧ x.2.1 = q ∧ (i, x.2.2) ∈ l ∧ x.2.2 ≠ .overlap := by
  induction l generalizing s with
  | nil => simp
  | cons e l ih =>
    rw [List.foldl_cons, ih]
    obtain ⟨k, a⟩ := e
    obtain ⟨x1, x2, x3⟩ := x
    unfold riStep
    by_cases ha : a = .overlap
    · subst ha
      simp only [ne_eq, not_true_eq_false, if_false, List.mem_cons, Prod.mk.injEq]
      constructor
      · rintro (h | ⟨h1, h2, h3, h4⟩)
        · exact .inl h
        · exact .inr ⟨h1, h2, .inr h3, h4⟩
      · rintro (h | ⟨h1, h2, ⟨-, h3⟩ | h3, h4⟩)
        · exact .inl h
        · exact absurd h3 h4
        · exact .inr ⟨h1, h2, h3, h4⟩
    · by_cases hk : k = i
      · subst hk
        simp only [ne_eq, ha, not_false_eq_true, if_true, List.mem_append, List.mem_cons, List.not_mem_nil, or_false, Prod.mk.injEq, true_and]
        constructor
        · rintro ((h | ⟨rfl, rfl, rfl⟩) | ⟨h1, h2, h3, h4⟩)
          · exact .inl h
          · exact .inr ⟨rfl, rfl, .inl rfl, ha⟩
          · exact .inr ⟨h1, h2, .inr h3, h4⟩
        · rintro (h | ⟨h1, h2, h3 | h3, h4⟩)
          · exact .inl (.inl h)
          · exact .inl (.inr ⟨h1, h2, h3⟩)
          · exact .inr ⟨h1, h2, h3, h4⟩
      · simp only [ne_eq, ha, not_false_eq_true, if_true, hk, if_false, List.mem_cons, Prod.mk.injEq]
        have : ¬ i = k := fun h => hk h.symm
        simp [this]

theorem riStep_owner_sound (i q : Nat) (l : List (Nat × Attr)) (s : RiMap) (x : Nat × Nat) (h : x ∈ (l.foldl (riStep i q) s).owner) :
    x ∈ s.owner ∨ x.1 = i ∧ x.2 = q ∧ (i, .owner) ∈ l := by
  induction l generalizing s with
  | nil => exact .inl h
  | cons e l ih =>
    rw [List.foldl_cons] at h
    rcases ih _ h with h | ⟨h1, h2, h3⟩
    · unfold riStep at h
      obtain ⟨k, a⟩ := e
      split at h
      · split at h
        · rename_i hk
          dsimp only at h hk
          split at h
          · rename_i ho
            rcases List.mem_append.1 h with h | h
            · exact .inl h
            · rw [List.mem_singleton] at h
              subst h
              refine .inr ⟨rfl, rfl, ?_⟩
              rw [← hk, ← ho.1]
              exact List.mem_cons_self ..
          · exact .inl h
        · exact .inl h
      · exact .inl h
    · exact .inr ⟨h1, h2, List.mem_cons_of_mem _ h3⟩

theorem lookup_append_some {l : List (Nat × Nat)} {i : Nat} (l' : List (Nat × Nat)) (h : (l.lookup i).isSome) : ((l ++ l').lookup i).isSome := by
  rw [List.lookup_append]
  cases hl : l.lookup i with
  | none => rw [hl] at h; cases h
  | some a => rfl

theorem riStep_owner_mono (i q : Nat) (l : List (Nat × Attr)) (s : RiMap) (j : Nat) (h : (s.owner.lookup j).isSome) :
    ((l.foldl (riStep i q) s).owner.lookup j).isSome := by
  induction l generalizing s with
  | nil => exact h
  | cons e l ih =>
    rw [List.foldl_cons]
    refine ih _ ?_
    unfold riStep
    split
    · split
      · dsimp only
        split
        · exact lookup_append_some _ h
        · exact h
      · exact h
    · exact h

theorem riStep_owner_complete (i q : Nat) (l : List (Nat × Attr)) (s : RiMap) (h : (i, .owner) ∈ l) :
    ((l.foldl (riStep i q) s).owner.lookup i).isSome := by
  induction l generalizing s with
  | nil => cases h
  | cons e l ih =>
    rw [List.foldl_cons]
    rcases List.mem_cons.1 h with h | h
    · subst h
      apply riStep_owner_mono
      unfold riStep
      rw [if_pos (show Attr.owner ≠ Attr.overlap by decide), if_pos rfl]
      dsimp only
      by_cases hs : (s.owner.lookup i).isNone
      · rw [if_pos ⟨rfl, hs⟩, List.lookup_append]
        cases hl : s.owner.lookup i with
        | none => simp
        | some a => simp
      · rw [if_neg (fun h => hs h.2)]
        cases hl : s.owner.lookup i with
        | none => rw [hl] at hs; exact absurd rfl hs
        | some a => rfl
    · exact ih _ h

/-- The specification of `RiMap` after some rows. -/
structure RiOk (ri : Remote) (rows : Nat → Prop) (s : RiMap) : Prop where
  known : ∀ i q a, (i, q, a) ∈ s.known ↔ rows i ∧ a ≠ .overlap ∧ ∃ l, (q, l) ∈ ri ∧ (i, a) ∈ l
  sound : ∀ i q, (i, q) ∈ s.owner → ∃ l, (q, l) ∈ ri ∧ (i, .owner) ∈ l
  complete : ∀ i q l, rows i → (q, l) ∈ ri → (i, .owner) ∈ l → (s.owner.lookup i).isSome

theorem novRow_known (i : Nat) (ri : Remote) (s : RiMap) (x : Nat × Nat × Attr) :
    x ∈ (ri.foldl (fun s r => r.2.foldl (riStep i r.1) s) s).known ↔
      x ∈ s.known ∨ x.1 = i ∧ x.2.2 ≠ .overlap ∧ ∃ l, (x.2.1, l) ∈ ri ∧ (i, x.2.2) ∈ l := by
  induction ri generalizing s with
  | nil => simp
  | cons r ri ih =>
    rw [List.foldl_cons, ih, riStep_known]
    constructor
    · rintro ((h | ⟨h1, h2, h3, h4⟩) | ⟨h1, h2, l, h3, h4⟩)
      · exact .inl h
      · exact .inr ⟨h1, h4, r.2, by rw [h2]; exact List.mem_cons_self .., h3⟩
      · exact .inr ⟨h1, h2, l, List.mem_cons_of_mem _ h3, h4⟩
    · rintro (h | ⟨h1, h2, l, h3, h4⟩)
      · exact .inl (.inl h)
      · rcases List.mem_cons.1 h3 with h3 | h3
        · subst h3; exact .inl (.inr ⟨h1, rfl, h4, h2⟩)
        · exact .inr ⟨h1, h2, l, h3, h4⟩

theorem novRow_sound (i : Nat) (ri : Remote) (s : RiMap) (x : Nat × Nat) (h : x ∈ (ri.foldl (fun s r => r.2.foldl (riStep i r.1) s) s).owner) :
    x ∈ s.owner ∨ x.1 = i ∧ ∃ l, (x.2, l) ∈ ri ∧ (i, .owner) ∈ l := by
  induction ri generalizing s with
  | nil => exact .inl h
  | cons r ri ih =>
    rw [List.foldl_cons] at h
    rcases ih _ h with h | ⟨h1, l, h2, h3⟩
    · rcases riStep_owner_sound _ _ _ _ _ h with h | ⟨h1, h2, h3⟩
      · exact .inl h
      · exact .inr ⟨h1, r.2, by rw [h2]; exact List.mem_cons_self .., h3⟩
    · exact .inr ⟨h1, l, List.mem_cons_of_mem _ h2, h3⟩

theorem novRow_mono (i : Nat) (ri : Remote) (s : RiMap) (j : Nat) (h : (s.owner.lookup j).isSome) :
    ((ri.foldl (fun s r => r.2.foldl (riStep i r.1) s) s).owner.lookup j).isSome := by
  induction ri generalizing s with
  | nil => exact h
  | cons r ri ih => rw [List.foldl_cons]; exact ih _ (riStep_owner_mono _ _ _ _ _ h)

theorem novRow_complete (i q : Nat) (ri : Remote) (l : List (Nat × Attr)) (s : RiMap) (hr : (q, l) ∈ ri) (h : (i, .owner) ∈ l) :
    ((ri.foldl (fun s r => r.2.foldl (riStep i r.1) s) s).owner.lookup i).isSome := by
  induction ri generalizing s with
  | nil => cases hr
  | cons r ri ih =>
    rw [List.foldl_cons]
    rcases List.mem_cons.1 hr with hr | hr
    · subst hr; exact novRow_mono _ _ _ _ (riStep_owner_complete _ _ _ _ h)
    · exact ih _ hr

theorem novRemote_ok (n : Nat) (mask : List Nat) (hm : n ≤ mask.length) (ri : Remote) :
    ∃ rm, novRemote n mask ri = .ok rm ∧ RiOk ri (fun i => i < n ∧ mask[i]? = some 0) rm := by
  unfold novRemote
  suffices h : ∀ k, k ≤ n → ∃ rm, (List.range k).foldlM (fun (s : RiMap) i => (do
      let m ← rd mask i
      if m = 0 then .ok (ri.foldl (fun s r => r.2.foldl (riStep i r.1) s) s)
      else .ok s : Res RiMap)) ⟨[], []⟩ = .ok rm ∧ RiOk ri (fun i => i < k ∧ mask[i]? = some 0) rm from h n (le_refl _)
  intro k
  induction k with
  | zero => intro _; exact ⟨⟨[], []⟩, rfl, by simp, by simp, by simp⟩
  | succ k ih =>
    intro hk
    obtain ⟨rm, h1, h2⟩ := ih (by omega)
    have hkl : k < mask.length := by omega
    rw [List.range_succ, List.foldlM_append, h1]
    change ∃ rm', ((do
      let m ← rd mask k
      if m = 0 then .ok (ri.foldl (fun s r => r.2.foldl (riStep k r.1) s) rm)
      else .ok rm : Res RiMap) >>= fun s => .ok s) = .ok rm' ∧ _
    rw [rd_lt hkl]
    simp only [Res.ok_bind]
    by_cases h0 : mask[k] = 0
    · rw [if_pos h0]
      refine ⟨_, rfl, ?_, ?_, ?_⟩
      · intro i q a
        rw [novRow_known, h2.known]
        dsimp only
        constructor
        · rintro (⟨⟨a1, a2⟩, a3, a4⟩ | ⟨rfl, a2, a3⟩)
          · exact ⟨⟨by omega, a2⟩, a3, a4⟩
          · exact ⟨⟨by omega, by rw [List.getElem?_eq_getElem hkl, h0]⟩, a2, a3⟩
        · rintro ⟨⟨a1, a2⟩, a3, a4⟩
          by_cases hik : i = k
          · subst hik; exact .inr ⟨rfl, a3, a4⟩
          · exact .inl ⟨⟨by omega, a2⟩, a3, a4⟩
      · intro i q h
        rcases novRow_sound _ _ _ _ h with h | ⟨h3, h4⟩
        · exact h2.sound i q h
        · dsimp only at h3 h4; subst h3; exact h4
      · intro i q l hi hr ho
        by_cases hik : i = k
        · subst hik; exact novRow_complete _ _ _ _ _ hr ho
        · exact novRow_mono _ _ _ _ (h2.complete i q l ⟨by omega, hi.2⟩ hr ho)
    · rw [if_neg h0]
      have hh : ∀ i, (i < k + 1 ∧ mask[i]? = some 0) ↔ (i < k ∧ mask[i]? = some 0) := by
        intro i
        constructor
        · rintro ⟨a1, a2⟩
          refine ⟨?_, a2⟩
          by_contra hc
          obtain rfl : i = k := by omega
          rw [List.getElem?_eq_getElem hkl] at a2
          exact h0 (Option.some.inj a2)
        · rintro ⟨a1, a2⟩; exact ⟨by omega, a2⟩
      refine ⟨_, rfl, ?_, h2.sound, ?_⟩
      · intro i q a; rw [h2.known]; simp only [hh]
      · intro i q l hi; exact h2.complete i q l ((hh i).1 hi)

end Par
end Istl
