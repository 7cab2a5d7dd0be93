import Verif.Spec.BuildOrder
import Verif.Lemmas.BcrsFrame

/-! Invariants of the construction calls: stage, mode and what has been called. -/

namespace Istl
namespace Bcrs
variable {B : Type} {α β : Type}

/-- The state a call ends in, normally or by exception. -/
def Ends (c : BC B α) (s s' : St B) : Prop := (∃ a, c s = .ok a s') ∨ ∃ e, c s = .throw e s'

/-- Mode, stage, number of rows and allocation data are the same. -/
structure Same (s s' : St B) : Prop where
  mode : s'.o.mode = s.o.mode
  ready : s'.o.ready = s.o.ready
  n : s'.o.n = s.o.n
  a : s'.o.a = s.o.a
  alloc : s'.o.alloc = s.o.alloc

theorem Same.refl (s : St B) : Same s s := ⟨rfl, rfl, rfl, rfl, rfl⟩
theorem Same.trans {s t u : St B} (h : Same s t) (g : Same t u) : Same s u :=
  ⟨g.mode.trans h.mode, g.ready.trans h.ready, g.n.trans h.n, g.a.trans h.a, g.alloc.trans h.alloc⟩

/-- The call never changes them. -/
def Fix (c : BC B α) : Prop := ∀ s s', Ends c s s' → Same s s'

theorem Fix.bind {x : BC B α} {f : α → BC B β} (hx : Fix x) (hf : ∀ a, Fix (f a)) : Fix (x >>= f) := by
  intro s s' h
  unfold Ends at h
  rw [Cmd.bind_def] at h
  cases hx' : x s with
  | ok a s1 =>
    rw [hx'] at h
    exact (hx s s1 (.inl ⟨a, hx'⟩)).trans (hf a s1 s' h)
  | throw e s1 =>
    rw [hx'] at h
    rcases h with ⟨a, h⟩ | ⟨e', h⟩
    · simp at h
    · simp at h; rw [← h.2]; exact hx s s1 (.inr ⟨e, hx'⟩)
  | ub => rw [hx'] at h; simp at h

theorem Fix.pure (a : α) : Fix (Pure.pure a : BC B α) := by
  rintro s s' (⟨b, h⟩ | ⟨e, h⟩) <;> simp at h
  rw [← h.2]; exact Same.refl s
theorem Fix.raise (e : Exc) : Fix (Cmd.raise e : BC B α) := by
  rintro s s' (⟨b, h⟩ | ⟨e, h⟩) <;> simp at h
  rw [← h.2]; exact Same.refl s
theorem Fix.get : Fix (Cmd.get : BC B (St B)) := by
  rintro s s' (⟨b, h⟩ | ⟨e, h⟩) <;> simp at h
  rw [← h.2]; exact Same.refl s
theorem Fix.lift (r : Res α) : Fix (Cmd.lift r : BC B α) := by
  rintro s s' h
  cases r <;> rcases h with ⟨b, h⟩ | ⟨e, h⟩ <;> simp at h <;> (rw [← h.2]; exact Same.refl s)
theorem Fix.modify {f : St B → St B} (hf : ∀ s, Same s (f s)) : Fix (Cmd.modify f : BC B Unit) := by
  rintro s s' (⟨b, h⟩ | ⟨e, h⟩) <;> simp at h
  rw [← h]; exact hf s
theorem Fix.setO {f : Obj B → Obj B} (hf : ∀ s : St B, Same s { s with o := f s.o }) : Fix (Bcrs.setO f : BC B Unit) :=
  Fix.modify hf
theorem Fix.ite {c : Prop} [Decidable c] {x y : BC B α} (hx : Fix x) (hy : Fix y) : Fix (if c then x else y) := by
  split <;> assumption
theorem Fix.row (i : Nat) : Fix (Bcrs.row i : BC B Win) := by
  intro s s' h
  unfold Ends Bcrs.row at h
  split at h
  · simp at h
  · split at h
    · simp at h; rw [← h]; exact Same.refl s
    · simp at h
theorem Fix.setRow (i : Nat) (w : Win) : Fix (Bcrs.setRow i w : BC B Unit) := by
  intro s s' h
  unfold Ends Bcrs.setRow at h
  split at h
  · simp at h
  · split at h
    · simp at h; rw [← h]; exact ⟨rfl, rfl, rfl, rfl, rfl⟩
    · simp at h

/-- decompose a call into basic steps that fix the stage -/
macro "fix_steps" : tactic => `(tactic| repeat' (first
  | exact Fix.pure _ | exact Fix.raise _ | exact Fix.get | exact Fix.lift _ | exact Fix.row _ | exact Fix.setRow _ _
  | (refine Fix.modify ?_; intro s; exact ⟨rfl, rfl, rfl, rfl, rfl⟩)
  | (refine Fix.setO ?_; intro s; exact ⟨rfl, rfl, rfl, rfl, rfl⟩)
  | refine Fix.bind ?_ ?_ | refine Fix.ite ?_ ?_ | intro _))

theorem fix_setrowsize (i sz : Nat) : Fix (setrowsize i sz : BC B Unit) := by unfold setrowsize; fix_steps
theorem fix_incrementrowsize (i sz : Nat) : Fix (incrementrowsize i sz : BC B Unit) := by unfold incrementrowsize; fix_steps
theorem fix_addindex (i j : Nat) : Fix (addindex i j : BC B Unit) := by unfold addindex; fix_steps
theorem fix_setIndices (i : Nat) (l : List Nat) : Fix (setIndices i l : BC B Unit) := by unfold setIndices; fix_steps
theorem fix_setIndicesNoSort (i : Nat) (l : List Nat) : Fix (setIndicesNoSort i l : BC B Unit) := by
  unfold setIndicesNoSort; fix_steps
theorem fix_entry (i j : Nat) (f : B → B) : Fix (entry i j f : BC B Unit) := by unfold entry; fix_steps
theorem fix_entryChecked (i j : Nat) (f : B → B) : Fix (entryChecked i j f : BC B Unit) := by
  unfold entryChecked
  repeat' (first | exact fix_entry i j f | exact Fix.raise _ | exact Fix.get | refine Fix.bind ?_ ?_ | refine Fix.ite ?_ ?_ | intro _)

theorem fix_cmpPut (b c : Nat) (v : B) (x : Cmp B) : Fix (cmpPut b c v x) := by unfold cmpPut; fix_steps
theorem fix_bumpRow (i : Nat) : Fix (bumpRow i : BC B Unit) := by unfold bumpRow; fix_steps
theorem fix_cmpOv (i b : Nat) (src : Option Nat) (ov : List ((Nat × Nat) × B)) : ∀ c, Fix (cmpOv i b src ov c) := by
  induction ov with
  | nil => intro c; exact Fix.pure _
  | cons e es ih =>
    intro c
    unfold cmpOv
    repeat' (first
      | exact fix_cmpPut _ _ _ _ | exact fix_bumpRow _ | exact ih _ | exact Fix.get | exact Fix.lift _ | exact Fix.pure _
      | refine Fix.bind ?_ ?_ | refine Fix.ite ?_ ?_ | intro _)
theorem fix_cmpMove (b p : Nat) (c : Cmp B) : Fix (cmpMove b p c) := by unfold cmpMove; fix_steps
theorem fix_cmpPerm (i b : Nat) (ps : List Nat) : ∀ c : Cmp B, Fix (cmpPerm i b ps c) := by
  induction ps with
  | nil => intro c; exact Fix.pure _
  | cons e es ih =>
    intro c
    exact Fix.bind (fix_cmpOv _ _ _ _ _) fun c => Fix.bind (fix_cmpMove _ _ _) fun c => ih _
theorem fix_cmpRow (i : Nat) (c : Cmp B) : Fix (cmpRow i c) := by
  unfold cmpRow
  repeat' (first
    | exact fix_cmpPerm _ _ _ _ | exact fix_cmpOv _ _ _ _ _ | exact Fix.get | exact Fix.lift _ | exact Fix.pure _
    | exact Fix.row _ | exact Fix.setRow _ _ | refine Fix.bind ?_ ?_ | intro _)
theorem fix_cmpRows (is : List Nat) : ∀ c : Cmp B, Fix (cmpRows is c) := by
  induction is with
  | nil => intro c; exact Fix.pure _
  | cons e es ih =>
    intro c
    exact Fix.bind (fix_cmpRow _ _) fun c => ih _
theorem fix_cmpNnz (n : Nat) : Fix (cmpNnz n : BC B Unit) := by unfold cmpNnz; fix_steps


theorem free_not_throw {γ : Type} {M : Mem γ} {p : Option Ptr} {e : Exc} : M.free p ≠ .throw e := by
  unfold Mem.free
  split
  · simp
  · split <;> simp
theorem read_not_throw {γ : Type} {M : Mem γ} {p : Option Ptr} {k : Nat} {e : Exc} : M.read p k ≠ .throw e := by
  unfold Mem.read
  repeat' split
  all_goals simp
theorem write_not_throw {γ : Type} {M : Mem γ} {p : Option Ptr} {k : List γ} {e : Exc} : M.write p k ≠ .throw e := by
  unfold Mem.write
  repeat' split
  all_goals simp
theorem freeRows_not_throw (ws : List Win) : ∀ (h : Heap B) {e : Exc}, freeRows h ws ≠ .throw e := by
  induction ws with
  | nil => intro h e; simp [freeRows]
  | cons w ws ih =>
    intro h e hc
    unfold freeRows at hc
    split at hc
    · cases h1 : h.js.free w.j with
      | throw e => exact free_not_throw h1
      | ub => rw [h1] at hc; simp at hc
      | ok js =>
        rw [h1, Res.ok_bind] at hc
        cases h2 : h.as.free w.p with
        | throw e => exact free_not_throw h2
        | ub => rw [h2] at hc; simp at hc
        | ok as =>
          rw [h2, Res.ok_bind] at hc
          cases h3 : freeRows { h with js := js, as := as } ws with
          | throw e => exact ih _ h3
          | ub => rw [h3] at hc; simp at hc
          | ok x => rw [h3, Res.ok_bind] at hc; simp at hc
    · cases h3 : freeRows h ws with
      | throw e => exact ih _ h3
      | ub => rw [h3] at hc; simp at hc
      | ok x => rw [h3, Res.ok_bind] at hc; simp at hc

theorem deallocate_ends {b : Bool} {s s' : St B} (h0 : s.o.alloc = 0 → s.o.a = none) (h : Ends (deallocate b) s s') :
    deallocate b s = .ok () s' ∧ s'.o.ready = .notAllocated ∧ s'.o.mode = s.o.mode ∧ s'.o.a = none ∧ s'.o.avg = s.o.avg ∧
      s'.o.cbs = s.o.cbs := by
  have key : ∃ r, deallocate b s = r ∧ ((∃ a, r = Out.ok a s') ∨ ∃ e, r = Out.throw e s') := ⟨_, rfl, h⟩
  obtain ⟨r, hr, h⟩ := key
  have hr' := hr
  unfold deallocate at hr
  dsimp only at hr
  by_cases hal : 0 < s.o.alloc
  · rw [if_pos hal] at hr
    cases ha : s.o.a with
    | none =>
      rw [ha] at hr
      dsimp only at hr
      rw [← hr] at h
      rcases h with ⟨a, h⟩ | ⟨e, h⟩ <;> simp at h
      refine ⟨?_, ?_⟩
      · rw [hr', ← hr]; simp [h]
      · rw [← h]; simp [ha]
    | some blk =>
      rw [ha] at hr
      dsimp only at hr
      cases hf : s.h.as.free (some ⟨blk, 0⟩) with
      | throw e => exact absurd hf free_not_throw
      | ub => rw [hf] at hr; rw [← hr] at h; simp at h
      | ok as =>
        rw [hf] at hr
        rw [← hr] at h
        rcases h with ⟨a, h⟩ | ⟨e, h⟩ <;> simp at h
        refine ⟨?_, ?_⟩
        · rw [hr', ← hr]; simp [h]
        · rw [← h]; simp
  · rw [if_neg hal] at hr
    have ha := h0 (by omega)
    cases hw : s.o.rows with
    | none =>
      rw [hw] at hr
      dsimp only at hr
      rw [← hr] at h
      rcases h with ⟨a, h⟩ | ⟨e, h⟩ <;> simp at h
      refine ⟨?_, ?_⟩
      · rw [hr', ← hr]; simp [h]
      · rw [← h]; simp [ha]
    | some ws =>
      rw [hw] at hr
      dsimp only at hr
      cases hf : freeRows s.h (ws.take s.o.n) with
      | throw e => exact absurd hf (freeRows_not_throw _ _)
      | ub => rw [hf] at hr; rw [← hr] at h; simp at h
      | ok as =>
        rw [hf] at hr
        rw [← hr] at h
        rcases h with ⟨a, h⟩ | ⟨e, h⟩ <;> simp at h
        refine ⟨?_, ?_⟩
        · rw [hr', ← hr]; simp [h]
        · rw [← h]; simp [ha]

theorem ends_bind {x : BC B α} {f : α → BC B β} {s s' : St B} (h : Ends (x >>= f) s s') :
    (∃ e, x s = .throw e s' ∧ (x >>= f) s = .throw e s') ∨
      ∃ a s1, x s = .ok a s1 ∧ (x >>= f) s = f a s1 ∧ Ends (f a) s1 s' := by
  unfold Ends at h
  rw [Cmd.bind_def] at h ⊢
  cases hx : x s with
  | ok a s1 => rw [hx] at h; exact .inr ⟨a, s1, rfl, rfl, h⟩
  | throw e s1 =>
    rw [hx] at h
    rcases h with ⟨a, h⟩ | ⟨e', h⟩ <;> simp at h
    exact .inl ⟨e, by rw [h.2], by rw [h.2]⟩
  | ub => rw [hx] at h; simp at h

theorem allocate_ends {r c k : Nat} {ar ad : Bool} {s s' : St B} (ha : s.o.a = none) (h : Ends (allocate r c k ar ad) s s') :
    (allocate r c k ar ad s = .ok () s' ∧ s'.o.ready = .building ∧ s'.o.mode = s.o.mode ∧ s'.o.n = r ∧ s'.o.alloc = k ∧
      (ad = false ∨ k = 0 → s'.o.a = none)) ∨
    ((∃ e, allocate r c k ar ad s = .throw e s') ∧ ar = true ∧ s'.o.ready = s.o.ready ∧ s'.o.mode = s.o.mode ∧ s'.o.a = none) := by
  have hrow : ∀ t : St B, (∃ ws, allocateRows r t = .ok () { t with o := { t.o with rows := ws } }) ∨
      ∃ e, allocateRows r t = .throw e t := by
    intro t
    unfold allocateRows
    split
    · split
      · exact .inr ⟨_, rfl⟩
      · exact .inl ⟨_, rfl⟩
    · exact .inl ⟨_, rfl⟩
  have hidx : ∀ t : St B, ∃ js j, allocateIdx t = .ok () { h := { t.h with js := js }, o := { t.o with jarr := j } } := by
    intro t
    unfold allocateIdx
    split
    · split
      · exact ⟨t.h.js, t.o.jarr, rfl⟩
      · exact ⟨_, _, rfl⟩
    · exact ⟨t.h.js, none, rfl⟩
  have hdat : ∀ t : St B, t.o.a = none → ∃ as a, allocateData t = .ok () { h := { t.h with as := as }, o := { t.o with a := a } } ∧
      (t.o.alloc = 0 → a = none) := by
    intro t ht
    unfold allocateData
    rw [ht]
    simp only [Option.isSome_none, Bool.false_eq_true, if_false]
    split
    · exact ⟨_, _, rfl, by omega⟩
    · exact ⟨t.h.as, none, rfl, fun _ => rfl⟩
  have e1 : ∃ ws0, allocate r c k ar ad s = (do
      if ar then allocateRows r
      if ad then allocateData
      allocateIdx
      setO fun o => { o with ready := .building } : BC B Unit)
      { s with o := { s.o with n := r, m := c, nnz := k, alloc := k, rows := ws0 } } := ⟨s.o.rows, rfl⟩
  obtain ⟨ws0, e1⟩ := e1
  have e2 : (∃ ws, allocate r c k ar ad s = (do
      if ad then allocateData
      allocateIdx
      setO fun o => { o with ready := .building } : BC B Unit)
      { s with o := { s.o with n := r, m := c, nnz := k, alloc := k, rows := ws } }) ∨
      ∃ e, ar = true ∧ allocate r c k ar ad s = .throw e { s with o := { s.o with n := r, m := c, nnz := k, alloc := k, rows := ws0 } } := by
    rw [e1]
    cases ar with
    | false => exact .inl ⟨ws0, rfl⟩
    | true =>
      simp only [if_true]
      rcases hrow { s with o := { s.o with n := r, m := c, nnz := k, alloc := k, rows := ws0 } } with ⟨ws, hh⟩ | ⟨e, hh⟩
      · exact .inl ⟨ws, by rw [Cmd.bind_ok hh]⟩
      · exact .inr ⟨e, trivial, by rw [Cmd.bind_throw hh]⟩
  rcases e2 with ⟨ws, e2⟩ | ⟨e, har, e2⟩
  · have e3 : ∃ as a, (allocate r c k ar ad s = (do
      allocateIdx
      setO fun o => { o with ready := .building } : BC B Unit)
      { h := { s.h with as := as}, o := { s.o with n := r, m := c, nnz := k, alloc := k, rows := ws, a := a } }) ∧
        (ad = false ∨ k = 0 → a = none) := by
      rw [e2]
      cases ad with
      | false => exact ⟨s.h.as, s.o.a, rfl, fun _ => ha⟩
      | true =>
        simp only [if_true]
        obtain ⟨as, a, hh, h0⟩ := hdat { s with o := { s.o with n := r, m := c, nnz := k, alloc := k, rows := ws } } ha
        exact ⟨as, a, by rw [Cmd.bind_ok hh], fun hk => h0 (by simpa using hk)⟩
    obtain ⟨as, a, e3, h0⟩ := e3
    obtain ⟨js, j, e4⟩ := hidx { h := { s.h with as := as}, o := { s.o with n := r, m := c, nnz := k, alloc := k, rows := ws, a := a } }
    rw [Cmd.bind_ok e4] at e3
    unfold Ends at h
    rw [e3] at h ⊢
    rcases h with ⟨u, h⟩ | ⟨e', h⟩
    · unfold setO at h; simp at h
      left
      subst h
      exact ⟨rfl, rfl, rfl, rfl, rfl, h0⟩
    · unfold setO at h; simp at h
  · unfold Ends at h
    rw [e2] at h ⊢
    rcases h with ⟨u, h⟩ | ⟨e', h⟩ <;> simp at h
    right
    obtain ⟨_, hs⟩ := h
    rw [← hs]
    exact ⟨⟨_, rfl⟩, har, rfl, rfl, ha⟩


theorem ends_get {f : St B → BC B β} {s s' : St B} (h : Ends (Cmd.get >>= f) s s') :
    (Cmd.get >>= f) s = f s s ∧ Ends (f s) s s' := ⟨rfl, h⟩

theorem setSize_ends {r c k : Nat} {s s' : St B} (h0 : s.o.alloc = 0 → s.o.a = none) (h : Ends (setSize r c k) s s') :
    (setSize r c k s = .ok () s' ∧ s'.o.ready = .building ∧ s'.o.mode = s.o.mode ∧ (s'.o.mode ≠ .implicit → s'.o.a = none) ∧
      (s'.o.alloc = 0 → s'.o.a = none)) ∨
    ((∃ e, setSize r c k s = .throw e s') ∧ s'.o.ready = .notAllocated ∧ s'.o.mode = s.o.mode ∧ s'.o.a = none) := by
  unfold setSize at h ⊢
  rcases ends_bind h with ⟨e, hx, _⟩ | ⟨u, s1, hx, hb, h⟩
  · have := (deallocate_ends h0 (.inr ⟨e, hx⟩)).1
    rw [hx] at this; simp at this
  obtain ⟨-, d1, d2, d3, d4, d5⟩ := deallocate_ends h0 (.inl ⟨u, hx⟩)
  rw [hb]
  obtain ⟨hb, h⟩ := ends_get h
  rw [hb]
  by_cases hm : s1.o.mode = .implicit
  · rw [if_pos hm] at h ⊢
    by_cases hk : 0 < k
    · rw [if_pos hk] at h ⊢
      right
      rcases h with ⟨a, h⟩ | ⟨e, h⟩ <;> simp at h
      rw [← h.2]
      exact ⟨⟨_, rfl⟩, d1, d2, d3⟩
    · rw [if_neg hk] at h ⊢
      unfold implicitAllocate at h ⊢
      obtain ⟨hb, h⟩ := ends_get h
      rw [hb]
      rw [if_neg (by simp [hm]), if_neg (by simp [d1])] at h ⊢
      by_cases hc : s1.o.cbs < 0
      · rw [if_pos hc] at h ⊢
        right
        rcases h with ⟨a, h⟩ | ⟨e, h⟩ <;> simp at h
        rw [← h.2]
        exact ⟨⟨_, rfl⟩, d1, d2, d3⟩
      · rw [if_neg hc] at h ⊢
        dsimp only at h ⊢
        rcases ends_bind h with ⟨e, hx, hb⟩ | ⟨u', s2, hx, hb, h⟩
        · right
          rcases allocate_ends d3 (.inr ⟨e, hx⟩) with ⟨q, _⟩ | ⟨-, q1, q2, q3, q4⟩
          · rw [hx] at q; simp at q
          · exact ⟨⟨e, hb⟩, q2.trans d1, q3.trans d2, q4⟩
        · left
          rcases allocate_ends d3 (.inl ⟨u', hx⟩) with ⟨q, q1, q2, q3, q4, q5⟩ | ⟨⟨e, q⟩, _⟩
          · rw [hb]
            unfold setO at h ⊢
            rcases h with ⟨a, h⟩ | ⟨e, h⟩ <;> simp at h
            subst h
            refine ⟨rfl, rfl, q2.trans d2, ?_, ?_⟩
            · intro hne; exact absurd (q2.trans hm) hne
            · intro h0
              exact q5 (.inr (by rw [← q4]; exact h0))
          · rw [hx] at q; simp at q
  · rw [if_neg hm] at h ⊢
    rcases allocate_ends d3 h with ⟨q, q1, q2, q3, q4, q5⟩ | ⟨q, q1, q2, q3, q4⟩
    · left
      exact ⟨q, q1, q2.trans d2, fun _ => q5 (.inl rfl), fun _ => q5 (.inl rfl)⟩
    · right
      exact ⟨q, q2.trans d1, q3.trans d2, q4⟩

theorem endrowsizes_ends {s s' : St B} (ha : s.o.a = none) (h : Ends endrowsizes s s') :
    (endrowsizes s = .ok () s' ∧ s.o.mode = .random ∧ s.o.ready = .building ∧ s'.o.ready = .rowSizesBuilt ∧ s'.o.mode = .random ∧
      s'.o.a = none) ∨ ((∃ e, endrowsizes s = .throw e s') ∧ s' = s) := by
  unfold endrowsizes at h ⊢
  obtain ⟨hb, h⟩ := ends_get h
  rw [hb]
  by_cases hm : s.o.mode = .random
  swap
  · rw [if_pos hm] at h ⊢
    rcases h with ⟨a, h⟩ | ⟨e, h⟩ <;> simp at h
    rw [← h.2]; exact .inr ⟨⟨_, rfl⟩, rfl⟩
  rw [if_neg (by simp [hm])] at h ⊢
  by_cases hr : s.o.ready = .building
  swap
  · rw [if_pos hr] at h ⊢
    rcases h with ⟨a, h⟩ | ⟨e, h⟩ <;> simp at h
    rw [← h.2]; exact .inr ⟨⟨_, rfl⟩, rfl⟩
  rw [if_neg (by simp [hr])] at h ⊢
  have hal : ∀ t1, Ends (endrowsizesAlloc s.o) s t1 →
      (endrowsizesAlloc s.o s = .ok () t1 ∧ t1.o.mode = .random ∧ t1.o.a = none) ∨
        ((∃ e, endrowsizesAlloc s.o s = .throw e t1) ∧ t1 = s) := by
    intro t1 h
    unfold endrowsizesAlloc at h ⊢
    split at h
    · rename_i h0
      rw [if_pos h0]
      rcases allocate_ends ha h with ⟨q, q1, q2, q3, q4, q5⟩ | ⟨_, q1, _⟩
      · exact .inl ⟨q, q2.trans hm, q5 (.inl rfl)⟩
      · simp at q1
    · rename_i h0
      rw [if_neg h0]
      split at h
      · rename_i h1
        rw [if_pos h1]
        rcases h with ⟨a, h⟩ | ⟨e, h⟩ <;> simp at h
        rw [← h.2]; exact .inr ⟨⟨_, rfl⟩, rfl⟩
      · rename_i h1
        rw [if_neg h1]
        rcases h with ⟨a, h⟩ | ⟨e, h⟩ <;> simp at h
        rw [← h]; exact .inl ⟨rfl, hm, ha⟩
  rcases ends_bind h with ⟨e, hx, hb⟩ | ⟨u, s2, hx, hb, h⟩
  · rcases hal _ (.inr ⟨e, hx⟩) with ⟨q, _⟩ | ⟨_, q⟩
    · rw [hx] at q; simp at q
    · exact .inr ⟨⟨e, hb⟩, q⟩
  rw [hb]
  rcases hal _ (.inl ⟨u, hx⟩) with ⟨_, q1, q2⟩ | ⟨⟨e, q⟩, _⟩
  swap
  · rw [hx] at q; simp at q
  rcases ends_bind h with ⟨e, hx, hb⟩ | ⟨u, s3, hx, hb, h⟩
  · unfold setO at hx; simp at hx
  rw [hb]
  have e3 := setO_inv hx
  obtain ⟨hb, h⟩ := ends_get h
  rw [hb]
  rcases ends_bind h with ⟨e, hx, hb⟩ | ⟨js, s5, hx, hb, h⟩
  · cases hw : s3.h.js.write (s3.o.jarr.map fun b => ⟨b, 0⟩) (List.replicate s3.o.nnz s3.o.m) with
    | throw e => exact absurd hw write_not_throw
    | ok x => rw [hw] at hx; simp at hx
    | ub => rw [hw] at hx; simp at hx
  rw [hb]
  have es := (lift_inv hx).2
  rw [es] at h ⊢
  rcases ends_bind h with ⟨e, hx, hb⟩ | ⟨_, s6, hx, hb, h⟩
  · simp at hx
  rw [hb]
  have e6 := modify_inv hx
  unfold setO at h ⊢
  rcases h with ⟨a, h⟩ | ⟨e, h⟩ <;> simp at h
  left
  subst h
  subst e6
  subst e3
  exact ⟨rfl, hm, hr, rfl, q1, q2⟩

theorem truncRows_not_throw (js : Mem Nat) (m : Nat) (ws : List Win) : ∀ (k : Nat) {e : Exc}, truncRows js m ws k ≠ .throw e := by
  induction ws with
  | nil => intro k e; simp [truncRows]
  | cons w ws ih =>
    intro k e h
    unfold truncRows at h
    cases h1 : js.read w.j w.sz with
    | throw e => exact read_not_throw h1
    | ub => rw [h1] at h; simp at h
    | ok xs =>
      rw [h1, Res.ok_bind] at h
      dsimp only at h
      cases h3 : truncRows js m ws (k - (w.sz - (xs.takeWhile (· < m)).length)) with
      | throw e => exact ih _ h3
      | ub => rw [h3] at h; simp at h
      | ok x => rw [h3, Res.ok_bind] at h; simp at h

theorem allocateData_none {t : St B} (ht : t.o.a = none) : ∃ as a,
    allocateData t = .ok () { h := { t.h with as := as }, o := { t.o with a := a } } ∧ (t.o.alloc = 0 → a = none) := by
  unfold allocateData
  rw [ht]
  simp only [Option.isSome_none, Bool.false_eq_true, if_false]
  split
  · exact ⟨_, _, rfl, by omega⟩
  · exact ⟨t.h.as, none, rfl, fun _ => rfl⟩

theorem endindices_ends {s s' : St B} (ha : s.o.a = none) (h : Ends endindices s s') :
    (endindices s = .ok () s' ∧ s.o.mode = .random ∧ s.o.ready = .rowSizesBuilt ∧ s'.o.ready = .built ∧
      (s'.o.alloc = 0 → s'.o.a = none)) ∨ ((∃ e, endindices s = .throw e s') ∧ s' = s) := by
  unfold endindices at h ⊢
  obtain ⟨hb, h⟩ := ends_get h
  rw [hb]
  by_cases hm : s.o.mode = .random
  swap
  · rw [if_pos hm] at h ⊢
    rcases h with ⟨a, h⟩ | ⟨e, h⟩ <;> simp at h
    rw [← h.2]; exact .inr ⟨⟨_, rfl⟩, rfl⟩
  rw [if_neg (by simp [hm])] at h ⊢
  obtain hr | hr | hr | hr : s.o.ready = .built ∨ s.o.ready = .building ∨ s.o.ready = .notAllocated ∨ s.o.ready = .rowSizesBuilt := by cases s.o.ready <;> simp
  · rw [if_pos hr] at h ⊢
    rcases h with ⟨a, h⟩ | ⟨e, h⟩ <;> simp at h
    rw [← h.2]; exact .inr ⟨⟨_, rfl⟩, rfl⟩
  · rw [if_neg (by simp [hr]), if_pos hr] at h ⊢
    rcases h with ⟨a, h⟩ | ⟨e, h⟩ <;> simp at h
    rw [← h.2]; exact .inr ⟨⟨_, rfl⟩, rfl⟩
  · rw [if_neg (by simp [hr]), if_neg (by simp [hr]), if_pos hr] at h ⊢
    rcases h with ⟨a, h⟩ | ⟨e, h⟩ <;> simp at h
    rw [← h.2]; exact .inr ⟨⟨_, rfl⟩, rfl⟩
  · rw [if_neg (by simp [hr]), if_neg (by simp [hr]), if_neg (by simp [hr])] at h ⊢
    rcases ends_bind h with ⟨e, hx, hb⟩ | ⟨x, s2, hx, hb, h⟩
    · cases hw : truncRows s.h.js s.o.m (s.o.rows.getD []) s.o.nnz with
      | throw e => exact absurd hw (truncRows_not_throw _ _ _ _)
      | ok x => rw [hw] at hx; simp at hx
      | ub => rw [hw] at hx; simp at hx
    rw [hb]
    have es := (lift_inv hx).2
    rw [es] at h ⊢
    dsimp only at h ⊢
    rcases ends_bind h with ⟨e, hx, hb⟩ | ⟨_, s3, hx, hb, h⟩
    · unfold setO at hx; simp at hx
    rw [hb]
    have e3 := setO_inv hx
    obtain ⟨as, a, hd, hd0⟩ := allocateData_none (t := s3) (by rw [e3]; exact ha)
    rcases ends_bind h with ⟨e, hx, hb⟩ | ⟨_, s4, hx, hb, h⟩
    · rw [hd] at hx; simp at hx
    rw [hb]
    rw [hd] at hx
    simp at hx
    unfold setO at h ⊢
    rcases h with ⟨a', h⟩ | ⟨e, h⟩ <;> simp at h
    left
    rw [← h]
    refine ⟨rfl, hm, hr, rfl, ?_⟩
    rw [← hx]
    exact hd0

theorem createbegin_ends {s s' : St B} (h : Ends createbegin s s') :
    (∃ c, createbegin s = .ok c s' ∧ (s.o.mode = .rowWise ∨ s.o.mode = .unknown) ∧ s.o.ready = .building ∧ c.i = 0 ∧
      s'.o.mode = .rowWise ∧ s'.o.n = s.o.n ∧ s'.o.a = s.o.a ∧ s'.o.alloc = s.o.alloc ∧
      s'.o.ready = if s.o.n = 0 then .built else .building) ∨ ((∃ e, createbegin s = .throw e s') ∧ s' = s) := by
  unfold createbegin at h ⊢
  rcases ends_bind h with ⟨e, hx, hb⟩ | ⟨_, s1, hx, hb, h⟩
  · unfold setO at hx; simp at hx
  rw [hb]
  have e1 := setO_inv hx
  obtain ⟨hb, h⟩ := ends_get h
  rw [hb]
  by_cases hr : s.o.ready = .building
  swap
  · have : s1 = s := by rw [e1]; simp [hr]
    rw [this] at h ⊢
    rw [if_pos hr] at h ⊢
    rcases h with ⟨a, h⟩ | ⟨e, h⟩ <;> simp at h
    rw [← h.2]; exact .inr ⟨⟨_, rfl⟩, rfl⟩
  have hr1 : s1.o.ready = .building := by rw [e1]; dsimp only; split <;> exact hr
  rw [if_neg (by simp [hr1])] at h ⊢
  by_cases hm : s.o.mode = .rowWise ∨ s.o.mode = .unknown
  swap
  · have : s1 = s := by rw [e1]; simp only [not_or] at hm; simp [hm.2]
    rw [this] at h ⊢
    have hm' : s.o.mode ≠ .rowWise := fun h => hm (.inl h)
    rw [if_pos hm'] at h ⊢
    rcases h with ⟨a, h⟩ | ⟨e, h⟩ <;> simp at h
    rw [← h.2]; exact .inr ⟨⟨_, rfl⟩, rfl⟩
  have hm1 : s1.o.mode = .rowWise := by
    rw [e1]; dsimp only
    rcases hm with hm | hm
    · rw [if_neg (by simp [hm])]; exact hm
    · rw [if_pos ⟨hm, hr⟩]
  have hn : s1.o.n = s.o.n := by rw [e1]; dsimp only; split <;> rfl
  have ha : s1.o.a = s.o.a := by rw [e1]; dsimp only; split <;> rfl
  have hal : s1.o.alloc = s.o.alloc := by rw [e1]; dsimp only; split <;> rfl
  rw [if_neg (by simp [hm1])] at h ⊢
  left
  by_cases h0 : s1.o.n = 0
  · rw [if_pos h0] at h ⊢
    rw [if_pos (by rw [← hn]; exact h0)]
    rcases ends_bind h with ⟨e, hx, hb⟩ | ⟨_, s2, hx, hb, h⟩
    · unfold setO at hx; simp at hx
    rw [hb]
    have e2 := setO_inv hx
    rcases h with ⟨a, h⟩ | ⟨e, h⟩ <;> simp at h
    rw [← h.2]
    subst e2
    exact ⟨_, rfl, hm, hr, rfl, hm1, hn, ha, hal, rfl⟩
  · rw [if_neg h0] at h ⊢
    rw [if_neg (by rw [← hn]; exact h0)]
    rcases h with ⟨a, h⟩ | ⟨e, h⟩ <;> simp at h
    rw [← h.2]
    exact ⟨_, rfl, hm, hr, rfl, hm1, hn, ha, hal, hr1⟩

theorem fix_place (c : CIter) (k : Nat) : Fix (c.place k : BC B (Option Ptr)) := by
  intro s s' h
  unfold Ends CIter.place at h
  dsimp only at h
  split at h
  · split at h
    · split at h
      · rcases h with ⟨a, h⟩ | ⟨e, h⟩ <;> simp at h
        rw [← h.2]; exact Same.refl s
      · exact Fix.bind (Fix.setRow _ _) (fun _ => Fix.pure _) s s' h
    · have := Fix.bind (Fix.setRow _ _) (fun _ => Fix.pure _) _ s' h
      exact ⟨this.mode, this.ready, this.n, this.a, this.alloc⟩
  · exact Fix.bind (Fix.setRow _ _) (fun _ => Fix.pure _) s s' h

theorem next_ends {c : CIter} {s s' : St B} (ha : s.o.a = none) (h : Ends c.next s s') :
    (∃ c', c.next s = .ok c' s' ∧ s.o.ready = .building ∧ c'.i = c.i + 1 ∧ s'.o.mode = s.o.mode ∧ s'.o.n = s.o.n ∧
      (s'.o.alloc = 0 → s'.o.a = none) ∧
      ((c.i + 1 = s.o.n ∧ s'.o.ready = .built) ∨ (s'.o.ready = .building ∧ s'.o.a = none))) ∨
    ((∃ e, c.next s = .throw e s') ∧ Same s s') := by
  unfold CIter.next at h ⊢
  obtain ⟨hb, h⟩ := ends_get h
  rw [hb]
  by_cases hr : s.o.ready = .building
  swap
  · rw [if_pos hr] at h ⊢
    rcases h with ⟨a, h⟩ | ⟨e, h⟩ <;> simp at h
    rw [← h.2]; exact .inr ⟨⟨_, rfl⟩, Same.refl s⟩
  rw [if_neg (by simp [hr])] at h ⊢
  dsimp only at h ⊢
  rcases ends_bind h with ⟨e, hx, hb⟩ | ⟨cur, s1, hx, hb, h⟩
  · exact .inr ⟨⟨e, hb⟩, fix_place _ _ _ _ (.inr ⟨e, hx⟩)⟩
  rw [hb]
  have F1 := fix_place _ _ _ _ (.inl ⟨_, hx⟩)
  rcases ends_bind h with ⟨e, hx, hb⟩ | ⟨w, s2, hx, hb, h⟩
  · exact .inr ⟨⟨e, hb⟩, F1.trans (Fix.row _ _ _ (.inr ⟨e, hx⟩))⟩
  rw [hb]
  have F2 := F1.trans (Fix.row _ _ _ (.inl ⟨_, hx⟩))
  obtain ⟨hb, h⟩ := ends_get h
  rw [hb]
  rcases ends_bind h with ⟨e, hx, hb⟩ | ⟨js, s3, hx, hb, h⟩
  · exact .inr ⟨⟨e, hb⟩, F2.trans (Fix.lift _ _ _ (.inr ⟨e, hx⟩))⟩
  rw [hb]
  have es := (lift_inv hx).2
  rw [es] at h ⊢
  rcases ends_bind h with ⟨e, hx, hb⟩ | ⟨_, s4, hx, hb, h⟩
  · simp at hx
  rw [hb]
  have e4 := modify_inv hx
  have F4 : Same s s4 := F2.trans (by rw [e4]; exact ⟨rfl, rfl, rfl, rfl, rfl⟩)
  have hfin : ∀ s5, Ends (c.finish (c.nnz + c.pat.length)) s4 s5 → c.finish (c.nnz + c.pat.length) s4 = .ok () s5 ∧
      s5.o.mode = s4.o.mode ∧ s5.o.n = s4.o.n ∧ (s5.o.alloc = 0 → s5.o.a = none) ∧
      ((c.i + 1 = s4.o.n ∧ s5.o.ready = .built) ∨ (s5.o.ready = .building ∧ s5.o.a = none)) := by
    intro s5 h
    have ha4 : s4.o.a = none := F4.a.trans ha
    unfold CIter.finish at h ⊢
    by_cases hi : c.i + 1 = s4.o.n
    · rw [if_pos hi]
      unfold Ends at h
      beta_reduce at h
      rw [if_pos hi] at h
      by_cases hz : 0 < s4.o.nnz
      · rw [if_pos hz] at h ⊢
        rcases ends_bind h with ⟨e, hx, hb⟩ | ⟨_, s6, hx, hb, h⟩
        · unfold setO at hx; simp at hx
        rw [hb]
        have e6 := setO_inv hx
        obtain ⟨as, a, hd, hd0⟩ := allocateData_none (t := s6) (by rw [e6]; exact ha4)
        rcases ends_bind h with ⟨e, hx, hb⟩ | ⟨_, s7, hx, hb, h⟩
        · rw [hd] at hx; simp at hx
        rw [hb]
        rw [hd] at hx
        simp at hx
        unfold setO at h ⊢
        rcases h with ⟨a', h⟩ | ⟨e, h⟩ <;> simp at h
        rw [← h]
        subst hx
        refine ⟨rfl, ?_, ?_, hd0, .inl ⟨hi, ?_⟩⟩
        all_goals rw [e6]
      · rw [if_neg hz] at h ⊢
        rcases h with ⟨a', h⟩ | ⟨e, h⟩ <;> simp at h
        rw [← h]
        exact ⟨rfl, rfl, rfl, fun _ => ha4, .inl ⟨hi, rfl⟩⟩
    · rw [if_neg hi]
      unfold Ends at h
      beta_reduce at h
      rw [if_neg hi] at h
      rcases h with ⟨a', h⟩ | ⟨e, h⟩ <;> simp at h
      rw [← h]
      exact ⟨rfl, rfl, rfl, fun _ => ha4, .inr ⟨F4.ready.trans hr, ha4⟩⟩
  rcases ends_bind h with ⟨e, hx, hb⟩ | ⟨_, s5, hx, hb, h⟩
  · have := (hfin _ (.inr ⟨e, hx⟩)).1
    rw [hx] at this; simp at this
  rw [hb]
  obtain ⟨_, f1, f2, f3, f4⟩ := hfin _ (.inl ⟨_, hx⟩)
  rcases h with ⟨a, h⟩ | ⟨e, h⟩ <;> simp at h
  left
  rw [← h.2]
  refine ⟨_, rfl, hr, rfl, f1.trans F4.mode, f2.trans F4.n, f3, ?_⟩
  rw [← F4.n]; exact f4

theorem compress_ends {s s' : St B} (h : Ends compress s s') :
    (compress s = .ok () s' ∧ s.o.mode = .implicit ∧ s.o.ready = .building ∧ s'.o.ready = .built ∧ s'.o.a = s.o.a ∧ s'.o.alloc = s.o.alloc) ∨
    ((∃ e, compress s = .throw e s') ∧ Same s s') := by
  unfold compress at h ⊢
  obtain ⟨hb, h⟩ := ends_get h
  rw [hb]
  by_cases hm : s.o.mode = .implicit
  swap
  · rw [if_pos hm] at h ⊢
    rcases h with ⟨a, h⟩ | ⟨e, h⟩ <;> simp at h
    rw [← h.2]; exact .inr ⟨⟨_, rfl⟩, Same.refl s⟩
  rw [if_neg (by simp [hm])] at h ⊢
  obtain hr | hr | hr | hr : s.o.ready = .built ∨ s.o.ready = .notAllocated ∨ s.o.ready = .rowSizesBuilt ∨ s.o.ready = .building := by cases s.o.ready <;> simp
  · rw [if_pos hr] at h ⊢
    rcases h with ⟨a, h⟩ | ⟨e, h⟩ <;> simp at h
    rw [← h.2]; exact .inr ⟨⟨_, rfl⟩, Same.refl s⟩
  · rw [if_neg (by simp [hr]), if_pos hr] at h ⊢
    rcases h with ⟨a, h⟩ | ⟨e, h⟩ <;> simp at h
    rw [← h.2]; exact .inr ⟨⟨_, rfl⟩, Same.refl s⟩
  · rw [if_neg (by simp [hr]), if_neg (by simp [hr]), if_pos (by simp [hr])] at h ⊢
    rcases h with ⟨a, h⟩ | ⟨e, h⟩ <;> simp at h
    rw [← h.2]; exact .inr ⟨⟨_, rfl⟩, Same.refl s⟩
  · rw [if_neg (by simp [hr]), if_neg (by simp [hr]), if_neg (by simp [hr])] at h ⊢
    rcases ends_bind h with ⟨e, hx, hb⟩ | ⟨cc, s2, hx, hb, h⟩
    · exact .inr ⟨⟨e, hb⟩, fix_cmpRows _ _ _ _ (.inr ⟨e, hx⟩)⟩
    rw [hb]
    have F2 := fix_cmpRows _ _ _ _ (.inl ⟨_, hx⟩)
    rcases ends_bind h with ⟨e, hx, hb⟩ | ⟨_, s3, hx, hb, h⟩
    · unfold setO at hx; simp at hx
    rw [hb]
    have e3 := setO_inv hx
    have F3 : Same s s3 := F2.trans (by rw [e3]; exact ⟨rfl, rfl, rfl, rfl, rfl⟩)
    rcases ends_bind h with ⟨e, hx, hb⟩ | ⟨_, s4, hx, hb, h⟩
    · exact .inr ⟨⟨e, hb⟩, F3.trans (fix_cmpNnz _ _ _ (.inr ⟨e, hx⟩))⟩
    rw [hb]
    have F4 := F3.trans (fix_cmpNnz _ _ _ (.inl ⟨_, hx⟩))
    unfold setO at h ⊢
    rcases h with ⟨a', h⟩ | ⟨e, h⟩ <;> simp at h
    left
    rw [← h]
    exact ⟨rfl, hm, hr, rfl, F4.a, F4.alloc⟩

end Bcrs
end Istl
