import Verif.Spec.Direct
import Mathlib.Data.Multiset.AddSub
import Mathlib.Algebra.Order.Group.Multiset
import Mathlib.Data.Multiset.Basic
import Mathlib.Tactic.Abel

/-! Reasoning about the blocks owned by a solver object. -/

namespace Istl
namespace Direct

/-- The heap is well formed and holds exactly the blocks of the multiset. -/
structure Holds (H : Heap) (s : Multiset (Nat × Nat)) : Prop where
  ok : H.Ok
  eq : (↑H.live : Multiset (Nat × Nat)) = s

theorem Holds.congr {H : Heap} {s t : Multiset (Nat × Nat)} (h : Holds H s) (e : s = t) : Holds H t := e ▸ h

theorem holds_alloc {H : Heap} {s : Multiset (Nat × Nat)} (h : Holds H s) (n : Nat) :
    Holds (H.alloc n).1 ((H.next, n) ::ₘ s) := by
  refine ⟨⟨?_, ?_⟩, ?_⟩
  · simp only [Heap.alloc, List.map_cons, List.nodup_cons]
    refine ⟨fun hm => ?_, h.ok.1⟩
    obtain ⟨b, hb, he⟩ := List.mem_map.1 hm
    have := h.ok.2 b hb
    omega
  · intro b hb
    simp only [Heap.alloc, List.mem_cons] at hb ⊢
    rcases hb with rfl | hb
    · simp
    · have := h.ok.2 b hb; omega
  · simp only [Heap.alloc, ← Multiset.cons_coe, h.eq]

theorem filter_id {l : List (Nat × Nat)} {i n : Nat} (hn : (l.map Prod.fst).Nodup) (hm : (i, n) ∈ l) :
    l.filter (fun b => decide (b.1 ≠ i)) = l.erase (i, n) := by
  induction l with
  | nil => cases hm
  | cons b l ih =>
    simp only [List.map_cons, List.nodup_cons] at hn
    by_cases hb : b = (i, n)
    · subst hb
      have hno : ∀ c ∈ l, c.1 ≠ i := fun c hc e => hn.1 (List.mem_map.2 ⟨c, hc, e⟩)
      rw [List.erase_cons_head, List.filter_cons_of_neg (by simp), List.filter_eq_self.2 (fun c hc => by simpa using hno c hc)]
    · have hm' : (i, n) ∈ l := by
        rcases List.mem_cons.1 hm with h | h
        · exact absurd h.symm hb
        · exact h
      have hb1 : b.1 ≠ i := fun e => hn.1 (List.mem_map.2 ⟨(i, n), hm', e.symm⟩)
      rw [List.filter_cons_of_pos (by simpa using hb1), List.erase_cons_tail (by simpa using hb), ih hn.2 hm']

theorem holds_free {H : Heap} {s : Multiset (Nat × Nat)} {i n : Nat} (h : Holds H ((i, n) ::ₘ s)) :
    ∃ H', H.free (.at i) = .ok H' ∧ Holds H' s := by
  have hm : (i, n) ∈ H.live := by
    have : (i, n) ∈ (↑H.live : Multiset (Nat × Nat)) := by rw [h.eq]; simp
    simpa using this
  have hf := filter_id h.ok.1 hm
  refine ⟨⟨H.next, H.live.erase (i, n)⟩, ?_, ⟨?_, ?_⟩, ?_⟩
  · rw [Heap.free, if_pos (List.mem_map.2 ⟨(i, n), hm, rfl⟩), hf]
  · exact h.ok.1.sublist ((List.erase_sublist (a := (i, n)) (l := H.live)).map Prod.fst)
  · exact fun b hb => h.ok.2 b (List.mem_of_mem_erase hb)
  · show (↑(H.live.erase (i, n)) : Multiset _) = s
    refine (Multiset.cons_inj_right (i, n)).1 ?_
    rw [← h.eq, Multiset.cons_coe]
    exact Multiset.coe_eq_coe.2 (List.perm_cons_erase hm).symm

theorem holds_freeAll (l : List (Nat × Nat)) : ∀ {H : Heap} {s : Multiset (Nat × Nat)}, Holds H (↑l + s) →
    ∃ H', H.freeAll (l.map fun b => .at b.1) = .ok H' ∧ Holds H' s := by
  induction l with
  | nil => intro H s h; exact ⟨H, rfl, h.congr (by simp)⟩
  | cons b l ih =>
    intro H s h
    obtain ⟨H1, h1, k1⟩ := holds_free (H := H) (i := b.1) (n := b.2) (s := ↑l + s)
      (h.congr (by rw [← Multiset.cons_coe, Multiset.cons_add]))
    obtain ⟨H2, h2, k2⟩ := ih k1
    exact ⟨H2, by rw [List.map_cons, Heap.freeAll, h1]; exact h2, k2⟩

theorem lookup_of_mem {l : List (Nat × Nat)} {i n : Nat} (hn : (l.map Prod.fst).Nodup) (hm : (i, n) ∈ l) :
    l.lookup i = some n := by
  induction l with
  | nil => cases hm
  | cons b l ih =>
    obtain ⟨j, k⟩ := b
    simp only [List.map_cons, List.nodup_cons] at hn
    rcases List.mem_cons.1 hm with h | h
    · simp only [Prod.mk.injEq] at h
      obtain ⟨rfl, rfl⟩ := h
      simp [List.lookup]
    · have : i ≠ j := fun e => hn.1 (List.mem_map.2 ⟨(i, n), h, e⟩)
      simp only [List.lookup, show (i == j) = false from by simpa using this]
      exact ih hn.2 h

theorem touch_ok {H : Heap} {s : Multiset (Nat × Nat)} (h : Holds H s) {i k n : Nat} (hm : (i, k) ∈ s) (hn : n ≤ k) :
    H.touch (.at i) n = .ok () := by
  rw [← h.eq] at hm
  have := lookup_of_mem h.ok.1 (by simpa using hm)
  simp only [Heap.touch, this, if_pos hn]
  split <;> rfl

theorem touch_zero (H : Heap) (p : Pt) : H.touch p 0 = .ok () := by simp [Heap.touch]

theorem touchAll_ok {H : Heap} {s : Multiset (Nat × Nat)} (h : Holds H s) (l : List (Pt × Nat))
    (hl : ∀ b ∈ l, b.2 = 0 ∨ ∃ i k, b.1 = .at i ∧ (i, k) ∈ s ∧ b.2 ≤ k) : H.touchAll l = .ok () := by
  induction l with
  | nil => rfl
  | cons b l ih =>
    obtain ⟨p, n⟩ := b
    have h1 : H.touch p n = .ok () := by
      rcases hl (p, n) (by simp) with hz | ⟨i, k, hi, hm, hk⟩
      · simp only at hz; rw [hz]; exact touch_zero H p
      · simp only at hi hk; rw [hi]; exact touch_ok h hm hk
    rw [Heap.touchAll]
    simp only [h1]
    exact ih fun b hb => hl b (by simp [hb])

theorem sameBlocks_of {H H' : Heap} (h : Holds H' ↑H.live) : SameBlocks H H' :=
  (Multiset.coe_eq_coe.1 h.eq).symm

theorem holds_self {H : Heap} (h : H.Ok) : Holds H ↑H.live := ⟨h, rfl⟩

/-- Freeing a block that is not allocated is undefined. -/
theorem free_dead {H : Heap} {i : Nat} (h : i ∉ H.live.map Prod.fst) : H.free (.at i) = .ub := by
  rw [Heap.free, if_neg h]

theorem id_inj {H : Heap} {s : Multiset (Nat × Nat)} {i n : Nat} (h : Holds H ((i, n) ::ₘ s)) : ∀ k, (i, k) ∉ s := by
  intro k hk
  obtain ⟨l, rfl⟩ := Quot.exists_rep s
  have hp : H.live.Perm ((i, n) :: l) := Multiset.coe_eq_coe.1 h.eq
  have := (hp.map Prod.fst).nodup_iff.1 h.ok.1
  simp only [List.map_cons, List.nodup_cons] at this
  exact this.1 (List.mem_map.2 ⟨(i, k), hk, rfl⟩)

/-- A block that was in a released part is not allocated any more. -/
theorem dead_of {H H' : Heap} {l : List (Nat × Nat)} {t : Multiset (Nat × Nat)} {i n : Nat} (h : Holds H (↑l + t))
    (hm : (i, n) ∈ l) (h' : Holds H' t) : H'.free (.at i) = .ub := by
  refine free_dead fun hi => ?_
  obtain ⟨b, hb, he⟩ := List.mem_map.1 hi
  have hp : H.live.Perm (l ++ H'.live) := Multiset.coe_eq_coe.1 (by rw [h.eq, ← Multiset.coe_add, h'.eq])
  have hnd := (hp.map Prod.fst).nodup_iff.1 h.ok.1
  rw [List.map_append, List.nodup_append] at hnd
  exact hnd.2.2 i (List.mem_map.2 ⟨(i, n), hm, rfl⟩) i (List.mem_map.2 ⟨b, hb, he⟩) rfl

/-- Number `i` was given out and its block is not allocated. -/
def Dead (H : Heap) (i : Nat) : Prop := i < H.next ∧ i ∉ H.live.map Prod.fst

theorem Dead.alloc {H : Heap} {i : Nat} (h : Dead H i) (n : Nat) : Dead (H.alloc n).1 i := by
  refine ⟨Nat.lt_succ_of_lt h.1, ?_⟩
  simp only [Heap.alloc, List.map_cons, List.mem_cons, not_or]
  exact ⟨by have := h.1; omega, h.2⟩

theorem Dead.free {H H' : Heap} {i : Nat} (h : Dead H i) {p : Pt} (e : H.free p = .ok H') : Dead H' i := by
  cases p with
  | null => cases e; exact h
  | wild => cases e
  | «at» j =>
    rw [Heap.free] at e
    split at e
    · cases e
      refine ⟨h.1, fun hm => h.2 ?_⟩
      obtain ⟨b, hb, he⟩ := List.mem_map.1 hm
      exact List.mem_map.2 ⟨b, List.mem_of_mem_filter hb, he⟩
    · cases e

theorem Dead.freeAll {i : Nat} (l : List Pt) : ∀ {H H' : Heap}, Dead H i → H.freeAll l = .ok H' → Dead H' i := by
  induction l with
  | nil => intro H H' h e; cases e; exact h
  | cons p l ih =>
    intro H H' h e
    rw [Heap.freeAll] at e
    obtain ⟨H1, h1, h2⟩ := Res.bind_eq_ok.1 e
    exact ih (h.free h1) h2

theorem Dead.ub {H : Heap} {i : Nat} (h : Dead H i) : H.free (.at i) = .ub := free_dead h.2

/-- What the released block leaves behind. -/
theorem dead_freed {H H' : Heap} {i : Nat} (h : H.Ok) (e : H.free (.at i) = .ok H') : Dead H' i := by
  rw [Heap.free] at e
  split at e
  · rename_i hm
    cases e
    obtain ⟨b, hb, he⟩ := List.mem_map.1 hm
    refine ⟨he ▸ h.2 b hb, fun hm' => ?_⟩
    obtain ⟨b', hb', he'⟩ := List.mem_map.1 hm'
    have := List.of_mem_filter hb'
    simp [he'] at this
  · cases e

theorem freeAll_head_ub {H : Heap} {p : Pt} {ps : List Pt} (h : H.free p = .ub) : H.freeAll (p :: ps) = .ub := by
  rw [Heap.freeAll, h]; rfl

theorem freeAll_append (l m : List Pt) : ∀ {H : Heap}, H.freeAll (l ++ m) = (H.freeAll l >>= fun H => H.freeAll m) := by
  induction l with
  | nil => intro H; rfl
  | cons p l ih =>
    intro H
    simp only [List.cons_append, Heap.freeAll]
    cases H.free p with
    | ok H1 => simp only [Res.ok_bind, ih]
    | throw e => rfl
    | ub => rfl

end Direct
end Istl
