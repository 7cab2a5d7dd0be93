import Verif.Spec.BlockVec
import Verif.Lemmas.Vec

/-! Lemmas for C98: the invariant (every object owns its block of memory, no other block is alive) and the operations of
the storage. -/

namespace Istl.BVec
variable {B : Type}

/-- The vector `s` has the elements `l`. -/
def Holds (M : Mem B) (s : Stor) (l : List B) : Prop :=
  match s.blk with
  | none => s.size = 0 ∧ s.cap = 0 ∧ l = []
  | some b => M[b]? = some (some l) ∧ s.size = l.length ∧ l.length ≤ s.cap

theorem Holds.size {M : Mem B} {s : Stor} {l : List B} (h : Holds M s l) : s.size = l.length := by
  unfold Holds at h
  split at h
  · rw [h.1, h.2.2]; rfl
  · exact h.2.1

theorem Holds.cap {M : Mem B} {s : Stor} {l : List B} (h : Holds M s l) : l.length ≤ s.cap := by
  unfold Holds at h
  split at h
  · rw [h.2.2]; exact Nat.zero_le _
  · exact h.2.2

theorem Holds.mk {M : Mem B} {s : Stor} {l : List B} {b : Nat} (hb : s.blk = some b) (h : M[b]? = some (some l))
    (h1 : s.size = l.length) (h2 : l.length ≤ s.cap) : Holds M s l := by
  unfold Holds; rw [hb]; exact ⟨h, h1, h2⟩

theorem Holds.get {M : Mem B} {s : Stor} {l : List B} {b : Nat} (h : Holds M s l) (hb : s.blk = some b) :
    M[b]? = some (some l) := by
  unfold Holds at h; rw [hb] at h; exact h.1

theorem Holds.nil {M : Mem B} {s : Stor} {l : List B} (h : Holds M s l) (hb : s.blk = none) : l = [] ∧ s.cap = 0 := by
  unfold Holds at h; rw [hb] at h; exact ⟨h.2.2, h.2.1⟩

theorem holds_empty (M : Mem B) : Holds M Stor.empty [] := ⟨rfl, rfl, rfl⟩

theorem Holds.elems {M : Mem B} {s : Stor} {l : List B} (h : Holds M s l) : elems M s = .ok l := by
  have hs := h.size
  unfold BVec.elems Mem.read
  by_cases h0 : s.size = 0
  · have hl : l = [] := List.length_eq_zero_iff.1 (hs ▸ h0)
    rw [if_pos h0, hl]
  · rw [if_neg h0]
    cases hb : s.blk with
    | none => exact absurd (by rw [hs, (h.nil hb).1]; rfl) h0
    | some b =>
      simp only [Stor.data, hb, Option.map_some, h.get hb]
      rw [if_pos (by omega)]
      simp [hs]

/-- From `(M, s)` to `(M', s')`: the new vector has the elements `l`, all blocks of others are as before, the block of the
vector is the old one or a new one, and no other block has become alive. -/
structure Trans (M : Mem B) (s : Stor) (M' : Mem B) (s' : Stor) (l : List B) : Prop where
  holds : Holds M' s' l
  keep : ∀ b k, M[b]? = some (some k) → s.blk ≠ some b → M'[b]? = some (some k)
  own : ∀ b, s'.blk = some b → s.blk = some b ∨ ∀ k, M[b]? ≠ some (some k)
  leak : ∀ b k, M'[b]? = some (some k) → s'.blk = some b ∨ (s.blk ≠ some b ∧ M[b]? = some (some k))

theorem Trans.refl {M : Mem B} {s : Stor} {l : List B} (h : Holds M s l) : Trans M s M s l := by
  refine ⟨h, fun _ _ h _ => h, fun _ h => Or.inl h, fun b k hk => ?_⟩
  by_cases hb : s.blk = some b
  · exact Or.inl hb
  · exact Or.inr ⟨hb, hk⟩

/-- In-place change of the constructed elements. -/
theorem inPlace_spec {M : Mem B} {s : Stor} {l l' : List B} (h : Holds M s l) (hl : l'.length ≤ s.cap) :
    ∃ M' s', inPlace M s l' = .ok (M', s') ∧ Trans M s M' s' l' ∧ s'.blk = s.blk ∧ s'.cap = s.cap := by
  cases hb : s.blk with
  | none =>
    have hn := h.nil hb
    have : l' = [] := List.length_eq_zero_iff.1 (by omega)
    refine ⟨M, { s with size := 0 }, ?_, ?_, hb, rfl⟩
    · simp [inPlace, hb, this]
    · subst this
      refine ⟨?_, fun _ _ h _ => h, fun b h => Or.inl h, fun b k hk => Or.inr ⟨by rw [hb]; simp, hk⟩⟩
      unfold Holds; simp [hb, hn.2]
  | some b =>
    have hg := h.get hb
    have hlt : b < M.length := by
      rw [List.getElem?_eq_some_iff] at hg; exact hg.1
    refine ⟨M.set b (some l'), { s with size := l'.length }, ?_, ?_, hb, rfl⟩
    · simp [inPlace, hb, hg]
    · refine ⟨Holds.mk (b := b) hb ?_ rfl hl, ?_, ?_, ?_⟩
      · simp [List.getElem?_set, hlt]
      · intro c k hk hne
        rw [hb] at hne
        have : b ≠ c := fun e => hne (by rw [e])
        simp [List.getElem?_set, this, hk]
      · intro c hc; exact Or.inl hc
      · intro c k hk
        by_cases hcb : b = c
        · left; simp [hb, hcb]
        · right
          rw [List.getElem?_set, if_neg hcb] at hk
          exact ⟨by rw [hb]; simpa using hcb, hk⟩

/-- A fresh allocation in exchange for the old one. -/
theorem replace_ok {M : Mem B} {s : Stor} {l l' : List B} (h : Holds M s l) (c : Nat) (hc : l'.length ≤ c) :
    ∃ M' s', replace M s (.ok ⟨some M.length, l'.length, c⟩ (M ++ [some l'])) = .ok () (M', s') ∧
      Trans M s M' s' l' ∧ s'.cap = c := by
  cases hb : s.blk with
  | none =>
    refine ⟨M ++ [some l'], ⟨some M.length, l'.length, c⟩, ?_, ?_, rfl⟩
    · simp [replace, release, Mem.free, Stor.data, hb]
    · refine ⟨Holds.mk (b := M.length) rfl (by simp) rfl hc, ?_, ?_, ?_⟩
      · intro b k hk _
        rw [List.getElem?_append_left (List.getElem?_eq_some_iff.1 hk).1]; exact hk
      · intro b hbb
        right
        intro k hk
        simp at hbb
        exact absurd (List.getElem?_eq_some_iff.1 hk).1 (by omega)
      · intro b k hk
        by_cases hbb : b < M.length
        · rw [List.getElem?_append_left hbb] at hk
          exact Or.inr ⟨by rw [hb]; simp, hk⟩
        · left
          have := (List.getElem?_eq_some_iff.1 hk).1
          simp at this
          simp; omega
  | some b =>
    have hg := h.get hb
    have hlt : b < M.length := (List.getElem?_eq_some_iff.1 hg).1
    refine ⟨(M ++ [some l']).set b none, ⟨some M.length, l'.length, c⟩, ?_, ?_, rfl⟩
    · have : (M ++ [some l'])[b]? = some (some l) := by rw [List.getElem?_append_left hlt]; exact hg
      simp [replace, release, Mem.free, Stor.data, hb, this]
    · refine ⟨Holds.mk (b := M.length) rfl ?_ rfl hc, ?_, ?_, ?_⟩
      · rw [List.getElem?_set, if_neg (by omega)]; simp
      · intro a k hk hne
        rw [hb] at hne
        have hba : b ≠ a := fun e => hne (by rw [e])
        rw [List.getElem?_set, if_neg hba, List.getElem?_append_left (List.getElem?_eq_some_iff.1 hk).1]
        exact hk
      · intro a haa
        right
        intro k hk
        simp at haa
        exact absurd (List.getElem?_eq_some_iff.1 hk).1 (by omega)
      · intro a k hk
        by_cases hba : b = a
        · subst hba
          rw [List.getElem?_set] at hk
          simp at hk
        · rw [List.getElem?_set, if_neg hba] at hk
          by_cases haa : a < M.length
          · rw [List.getElem?_append_left haa] at hk
            exact Or.inr ⟨by rw [hb]; simpa using hba, hk⟩
          · left
            have := (List.getElem?_eq_some_iff.1 hk).1
            simp at this
            simp; omega

/-- `fresh` followed by the exchange: done, or nothing happened. -/
theorem replace_fresh {M : Mem B} {s : Stor} {l l' : List B} (lk : Luck) (h : Holds M s l) (c made : Nat)
    (hc : l'.length ≤ c) :
    (∃ M' s', replace M s (fresh lk M l' c made) = .ok () (M', s') ∧ Trans M s M' s' l' ∧ s'.cap = c + lk.extra) ∨
    (∃ e, replace M s (fresh lk M l' c made) = .throw e (M, s)) := by
  unfold fresh
  by_cases ha : lk.alloc = false
  · right; exact ⟨.lengthError, by simp [ha, replace]⟩
  · rw [if_neg ha]
    cases lk.stop made with
    | some j => right; exact ⟨.lengthError, by simp [replace]⟩
    | none =>
      left
      exact replace_ok h (c + lk.extra) (by omega)

theorem vReserve_spec {M : Mem B} {s : Stor} {l : List B} (lk : Luck) (h : Holds M s l) (c : Nat) :
    (∃ M' s', vReserve lk c (M, s) = .ok () (M', s') ∧ Trans M s M' s' l ∧ c ≤ s'.cap ∧ (c ≤ s.cap → s' = s)) ∨
    (∃ e, vReserve lk c (M, s) = .throw e (M, s) ∧ ¬ c ≤ s.cap) := by
  unfold vReserve
  by_cases hc : c ≤ s.cap
  · left; exact ⟨M, s, by simp [hc], Trans.refl h, hc, fun _ => rfl⟩
  · simp only [if_neg hc, h.elems]
    have hcap := h.cap
    rcases replace_fresh (l' := l) lk h c l.length (by omega) with ⟨M', s', h1, h2, h3⟩ | ⟨e, h1⟩
    · left; exact ⟨M', s', h1, h2, by omega, fun h => absurd h hc⟩
    · right; exact ⟨e, h1, hc⟩

theorem vResize_spec {M : Mem B} {s : Stor} {l : List B} (vini : B) (lk : Luck) (h : Holds M s l) (k : Nat) :
    (∃ M' s', vResize vini lk k (M, s) = .ok () (M', s') ∧ Trans M s M' s' (resized vini k l) ∧
      (k ≤ s.cap → s'.blk = s.blk ∧ s'.cap = s.cap)) ∨
    (∃ e, vResize vini lk k (M, s) = .throw e (M, s) ∧ (k ≤ s.cap → lk.fails ≠ none)) := by
  have hs := h.size
  have hcap := h.cap
  unfold vResize
  simp only [h.elems]
  by_cases h1 : k ≤ s.size
  · simp only [if_pos h1]
    obtain ⟨M', s', e1, e2, e3, e4⟩ := inPlace_spec h (l' := l.take k) (by simp; omega)
    left
    refine ⟨M', s', by simp [e1, settle], ?_, fun _ => ⟨e3, e4⟩⟩
    have : resized vini k l = l.take k := by
      unfold resized
      rw [show k - l.length = 0 by omega]; simp
    rw [this]; exact e2
  · simp only [if_neg h1]
    have hr : resized vini k l = l ++ List.replicate (k - s.size) vini := by
      unfold resized
      rw [hs, List.take_of_length_le (by omega)]
    have hlen : (l ++ List.replicate (k - s.size) vini).length = k := by simp; omega
    by_cases h2 : k ≤ s.cap
    · simp only [if_pos h2]
      cases hst : lk.stop (k - s.size) with
      | some j =>
        right
        refine ⟨.lengthError, rfl, fun _ hn => ?_⟩
        simp [Luck.stop, hn] at hst
      | none =>
        left
        obtain ⟨M', s', e1, e2, e3, e4⟩ := inPlace_spec h (l' := l ++ List.replicate (k - s.size) vini) (by omega)
        exact ⟨M', s', by simp [e1, settle], by rw [hr]; exact e2, fun _ => ⟨e3, e4⟩⟩
    · simp only [if_neg h2]
      rcases replace_fresh (l' := l ++ List.replicate (k - s.size) vini) lk h k k (by omega) with ⟨M', s', h3, h4, _⟩ | ⟨e, h3⟩
      · left; exact ⟨M', s', h3, by rw [hr]; exact h4, fun h => absurd h h2⟩
      · right; exact ⟨e, h3, fun h => absurd h h2⟩

theorem vAssign_spec {M : Mem B} {s : Stor} {l : List B} (lk : Luck) (h : Holds M s l) (src : List B) :
    (∃ M' s', vAssign lk src (M, s) = .ok () (M', s') ∧ Trans M s M' s' src ∧
      (src.length ≤ s.cap → s'.blk = s.blk ∧ s'.cap = s.cap)) ∨
    (∃ e M' s' j, vAssign lk src (M, s) = .throw e (M', s') ∧ j ≤ l.length ∧ j ≤ src.length ∧
      Trans M s M' s' (src.take j ++ l.drop j) ∧ (s'.blk = s.blk ∧ s'.cap = s.cap)) := by
  have hs := h.size
  have hcap := h.cap
  unfold vAssign
  simp only [h.elems]
  by_cases h1 : src.length ≤ s.cap
  · simp only [if_pos h1]
    cases hst : lk.stop src.length with
    | some j =>
      right
      have hj : j < src.length := by
        unfold Luck.stop at hst
        split at hst
        · cases hst
        · split at hst
          · injection hst with hst; omega
          · cases hst
      have hlen : (src.take (min j s.size) ++ l.drop (min j s.size)).length ≤ s.cap := by simp; omega
      obtain ⟨M', s', e1, e2, e3, e4⟩ := inPlace_spec h hlen
      exact ⟨.lengthError, M', s', min j s.size, by simp only [e1], by omega, by omega, e2, e3, e4⟩
    | none =>
      left
      obtain ⟨M', s', e1, e2, e3, e4⟩ := inPlace_spec h h1
      exact ⟨M', s', by simp [e1, settle], e2, fun _ => ⟨e3, e4⟩⟩
  · simp only [if_neg h1]
    rcases replace_fresh (l' := src) lk h src.length src.length (le_refl _) with ⟨M', s', h3, h4, _⟩ | ⟨e, h3⟩
    · left; exact ⟨M', s', h3, h4, fun h => absurd h h1⟩
    · right; exact ⟨e, M, s, 0, h3, by omega, by omega, by simpa using Trans.refl h, rfl, rfl⟩

/-! ### The invariant of all objects -/

/-- Every object is in step with its storage, which holds its value; different objects have different blocks; every block
that is alive belongs to an object. -/
structure Rep (M : Mem B) (vec : Nat → Option Vec) (vals : Vals B) : Prop where
  obj : ∀ x v, vec x = some v → ∃ l, vals x = some l ∧ v = sync v.st ∧ Holds M v.st l
  gone : ∀ x, vec x = none → vals x = none
  inj : ∀ x y v u b, vec x = some v → vec y = some u → v.st.blk = some b → u.st.blk = some b → x = y
  owned : ∀ b k, M[b]? = some (some k) → ∃ x v, vec x = some v ∧ v.st.blk = some b

theorem Rep.init : Rep (B := B) [] (fun _ => none) (fun _ => none) := by
  refine ⟨?_, ?_, ?_, ?_⟩ <;> simp

/-- The storage of `x`: that of the object, or of an object under construction. -/
def storOf (vec : Nat → Option Vec) (x : Nat) : Stor :=
  match vec x with
  | some v => v.st
  | none => Stor.empty

/-- One object gets a new storage by an operation on its old one. -/
theorem Rep.update {M M' : Mem B} {vec : Nat → Option Vec} {vals : Vals B} (h : Rep M vec vals) {x : Nat} {s' : Stor}
    {l : List B} (t : Trans M (storOf vec x) M' s' l) :
    Rep M' (Function.update vec x (some (sync s'))) (Function.update vals x (some l)) := by
  have hother : ∀ y v, y ≠ x → vec y = some v → ∀ b, v.st.blk = some b →
      (storOf vec x).blk ≠ some b := by
    intro y v hy hv b hb hx
    unfold storOf at hx
    cases hxv : vec x with
    | none => rw [hxv] at hx; cases hx
    | some u => rw [hxv] at hx; exact hy (h.inj y x v u b hv hxv hb hx)
  refine ⟨?_, ?_, ?_, ?_⟩
  · intro y v hv
    by_cases hy : y = x
    · subst hy
      rw [Function.update_self] at hv ⊢
      injection hv with hv
      subst hv
      exact ⟨l, rfl, rfl, t.holds⟩
    · rw [Function.update_of_ne hy] at hv ⊢
      obtain ⟨k, h1, h2, h3⟩ := h.obj y v hv
      refine ⟨k, h1, h2, ?_⟩
      cases hb : v.st.blk with
      | none => unfold Holds at h3 ⊢; rw [hb] at h3 ⊢; exact h3
      | some b => exact Holds.mk hb (t.keep b k (h3.get hb) (hother y v hy hv b hb)) h3.size h3.cap
  · intro y hv
    by_cases hy : y = x
    · subst hy; rw [Function.update_self] at hv; cases hv
    · rw [Function.update_of_ne hy] at hv ⊢; exact h.gone y hv
  · have key : ∀ y u b, y ≠ x → vec y = some u → u.st.blk = some b → s'.blk = some b → False := by
      intro y u b hy hu hb hs
      rcases t.own b hs with h1 | h1
      · exact hother y u hy hu b hb h1
      · obtain ⟨k, _, _, hk⟩ := h.obj y u hu
        exact h1 k (hk.get hb)
    intro y z v u b hv hu hb1 hb2
    by_cases hy : y = x
    · by_cases hz : z = x
      · rw [hy, hz]
      · subst hy
        rw [Function.update_self] at hv
        rw [Function.update_of_ne hz] at hu
        injection hv with hv
        subst hv
        exact (key z u b hz hu hb2 hb1).elim
    · rw [Function.update_of_ne hy] at hv
      by_cases hz : z = x
      · subst hz
        rw [Function.update_self] at hu
        injection hu with hu
        subst hu
        exact (key y v b hy hv hb1 hb2).elim
      · rw [Function.update_of_ne hz] at hu
        exact h.inj y z v u b hv hu hb1 hb2
  · intro b k hk
    rcases t.leak b k hk with h1 | ⟨h1, h2⟩
    · exact ⟨x, sync s', Function.update_self .., h1⟩
    · obtain ⟨y, v, hv, hb⟩ := h.owned b k h2
      have hy : y ≠ x := by
        intro e
        subst e
        apply h1
        unfold storOf
        rw [hv]; exact hb
      exact ⟨y, v, by rw [Function.update_of_ne hy]; exact hv, hb⟩

end Istl.BVec
