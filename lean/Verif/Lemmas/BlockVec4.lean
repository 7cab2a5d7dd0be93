import Verif.Lemmas.BlockVec3

/-! Lemmas for C98: what is visible of a state, the reachable states, windows. -/

namespace Istl.BVec
variable {B : Type}

theorem Rep.shows {w : World B} {vals : Vals B} (h : Rep w.mem w.vec vals) {x : Nat} {l : List B} (hl : vals x = some l) :
    Shows w x l := by
  obtain ⟨v, hv, hs, hh⟩ := h.live hl
  have hn : v.n = l.length := by rw [hs]; exact hh.size
  refine ⟨by simp [size, hv, hn], ?_⟩
  intro i hi
  have hp : v.p = v.st.data := by rw [hs]; rfl
  unfold get
  rw [hv]
  simp only [hp]
  cases hb : v.st.blk with
  | none => rw [(hh.nil hb).1] at hi; exact absurd hi (by simp)
  | some b =>
    simp only [Stor.data, hb, Option.map_some]
    rw [load_ok (off := 0) (hh.get hb) (by omega)]
    simp

theorem Rep.sees {w : World B} {vals : Vals B} (h : Rep w.mem w.vec vals) : Sees w vals := by
  intro x
  cases hx : w.vec x with
  | none => rw [h.gone x hx]; simp [size, hx]
  | some v =>
    obtain ⟨l, hl, _⟩ := h.obj x v hx
    rw [hl]
    exact h.shows hl

theorem Shows.unique {w : World B} {x : Nat} {l k : List B} (h : Shows w x l) (h' : Shows w x k) : l = k := by
  have hlen : l.length = k.length := by
    have := h.1.symm.trans h'.1
    injection this
  refine List.ext_getElem hlen ?_
  intro i h1 h2
  have := (h.2 i h1).symm.trans (h'.2 i h2)
  injection this

theorem Sees.unique {w : World B} {vals vals' : Vals B} (h : Sees w vals) (h' : Sees w vals') : vals = vals' := by
  funext x
  have h1 := h x
  have h2 := h' x
  cases hv : vals x with
  | none =>
    cases hv' : vals' x with
    | none => rfl
    | some l =>
      rw [hv] at h1; rw [hv'] at h2
      rw [h2.1] at h1; cases h1
  | some k =>
    cases hv' : vals' x with
    | none =>
      rw [hv] at h1; rw [hv'] at h2
      have h1' := h1.1
      rw [h2] at h1'; cases h1'
    | some l =>
      rw [hv] at h1; rw [hv'] at h2
      rw [Shows.unique h1 h2]

theorem onMem_cases {f : Mem B → Res (Mem B)} {w : World B} :
    (∃ M, f w.mem = .ok M ∧ onMem f w = .ok () { w with mem := M }) ∨ (∃ e, onMem f w = .throw e w) ∨ onMem f w = .ub := by
  unfold onMem
  cases f w.mem with
  | ok M => left; exact ⟨M, rfl, rfl⟩
  | throw e => right; left; exact ⟨e, rfl⟩
  | ub => right; right; rfl

/-- Calls on windows keep the invariant, for some values. -/
theorem wcall_rep (vini : B) {w : World B} (h : ∃ vals, Rep w.mem w.vec vals) (lk : Luck) (c : WCall B) :
    (∀ w', c.run vini lk w = .ok () w' → ∃ vals, Rep w'.mem w'.vec vals) ∧
    (∀ e w', c.run vini lk w = .throw e w' → ∃ vals, Rep w'.mem w'.vec vals) := by
  have hmem : ∀ (w : World B) (f : Mem B → Res (Mem B)), (∃ vals, Rep w.mem w.vec vals) →
      (∀ M, f w.mem = .ok M → ∃ vals, Rep M w.vec vals) →
      (∀ w', onMem f w = .ok () w' → ∃ vals, Rep w'.mem w'.vec vals) ∧
      (∀ e w', onMem f w = .throw e w' → ∃ vals, Rep w'.mem w'.vec vals) := by
    intro w f h hf
    rcases onMem_cases (f := f) (w := w) with ⟨M, h1, h2⟩ | ⟨e, h2⟩ | h2
    · rw [h2]
      refine ⟨fun w' e => ?_, fun _ _ e => (by cases e)⟩
      injection e with _ e; subst e; exact hf M h1
    · rw [h2]
      refine ⟨fun _ e => (by cases e), fun _ w' e => ?_⟩
      injection e with _ e; subst e; exact h
    · rw [h2]
      exact ⟨fun _ e => (by cases e), fun _ _ e => (by cases e)⟩
  have hok : ∀ w0 : World B, (∃ vals, Rep w0.mem w0.vec vals) →
      (∀ w', (Out.ok () w0 : Out (World B) Unit) = .ok () w' → ∃ vals, Rep w'.mem w'.vec vals) ∧
      (∀ e w', (Out.ok () w0 : Out (World B) Unit) = .throw e w' → ∃ vals, Rep w'.mem w'.vec vals) := by
    intro w0 h0
    refine ⟨fun w' e => ?_, fun _ _ e => (by cases e)⟩
    injection e with _ e; subst e; exact h0
  have hub : (∀ w', (Out.ub : Out (World B) Unit) = .ok () w' → ∃ vals, Rep w'.mem w'.vec vals) ∧
      (∀ e w', (Out.ub : Out (World B) Unit) = .throw e w' → ∃ vals, Rep w'.mem w'.vec vals) :=
    ⟨fun _ e => (by cases e), fun _ _ e => (by cases e)⟩
  cases c with
  | on k x off len =>
    simp only [WCall.run, winAt, withVec]
    cases w.vec x with
    | none => exact hub
    | some v => exact hok _ h
  | copy k g =>
    simp only [WCall.run, winCopy, withWin]
    cases w.win g with
    | none => exact hub
    | some v => exact hok _ h
  | setsize k n =>
    simp only [WCall.run, winSetsize, withWin]
    cases w.win k with
    | none => exact hub
    | some v => exact hok _ h
  | setptr k x off =>
    simp only [WCall.run, winSetptr, withVec, withWin]
    cases w.vec x with
    | none => exact hub
    | some v =>
      cases w.win k with
      | none => exact hub
      | some v => exact hok _ h
  | assign k g =>
    simp only [WCall.run, winAssign, withWin]
    cases w.win k with
    | none => exact hub
    | some t =>
      cases w.win g with
      | none => exact hub
      | some a =>
        simp only
        split
        · exact hmem w _ h (fun M hM => Rep.copied h hM)
        · exact hok _ h
  | fill k b =>
    simp only [WCall.run, winFill, withWin]
    cases w.win k with
    | none => exact hub
    | some t => exact hmem w _ h (fun M hM => Rep.filled h hM)
  | put k i b =>
    simp only [WCall.run, winPut, withWin]
    cases w.win k with
    | none => exact hub
    | some t => exact hmem w _ h (fun M hM => h.choose_spec.stored hM)
  | vector x k =>
    simp only [WCall.run, winVector, withWin]
    cases w.win k with
    | none => exact hub
    | some t =>
      simp only
      obtain ⟨vals, hr⟩ := h
      have h1 := run_ctorSize vini w vals lk lk hr x t.n
      simp only [Call.run] at h1
      unfold Cmd.bind
      cases hc : ctorSize vini lk x t.n w with
      | ub => exact hub
      | throw e w1 =>
        rw [hc] at h1
        refine ⟨fun _ e => (by cases e), fun _ w' e => ?_⟩
        injection e with _ e; subst e
        obtain ⟨⟨vals', _, h2⟩, _⟩ := h1
        exact ⟨vals', h2⟩
      | ok a w1 =>
        rw [hc] at h1
        simp only [withVec]
        cases w1.vec x with
        | none => exact hub
        | some v => exact hmem w1 _ ⟨_, h1.1⟩ (fun M hM => Rep.copied ⟨_, h1.1⟩ hM)

/-- In every reachable state the invariant holds. -/
theorem Reach.rep {vini : B} {w : World B} (h : Reach vini w) : ∃ vals, Rep w.mem w.vec vals := by
  induction h with
  | init => exact ⟨_, Rep.init⟩
  | @ok w w' lk lk' c _ h ih =>
    obtain ⟨vals, hr⟩ := ih
    have := run_outcome vini w vals lk lk' hr c
    rw [h] at this
    exact ⟨_, this.1⟩
  | @threw w w' lk lk' e c _ h ih =>
    obtain ⟨vals, hr⟩ := ih
    have := run_outcome vini w vals lk lk' hr c
    rw [h] at this
    obtain ⟨⟨vals', _, h2⟩, _⟩ := this
    exact ⟨vals', h2⟩
  | wok c _ h ih => exact (wcall_rep vini ih _ c).1 _ h
  | wthrew c _ h ih => exact (wcall_rep vini ih _ c).2 _ _ h

theorem Reach.rep_of {vini : B} {w : World B} (h : Reach vini w) {vals : Vals B} (hs : Sees w vals) :
    Rep w.mem w.vec vals := by
  obtain ⟨vals', hr⟩ := h.rep
  rw [Sees.unique hs hr.sees]; exact hr

/-- What a window with blocks looks at. -/
theorem Aims.block {w : World B} {vals : Vals B} (h : Rep w.mem w.vec vals) {k x off len : Nat} (ha : Aims w k x off len)
    (hlen : 0 < len) : ∃ v b l, w.vec x = some v ∧ v.st.blk = some b ∧ vals x = some l ∧ w.mem[b]? = some (some l) ∧
      w.win k = some ⟨some ⟨b, off⟩, len⟩ ∧ off + len ≤ l.length := by
  obtain ⟨v, hv, hw, hn⟩ := ha
  obtain ⟨l, hl, hh⟩ := h.holds hv
  have hs := h.synced hv
  have hn' : v.n = l.length := by rw [hs]; exact hh.size
  cases hb : v.st.blk with
  | none => rw [(hh.nil hb).1] at hn'; simp at hn'; omega
  | some b =>
    refine ⟨v, b, l, hv, hb, hl, hh.get hb, ?_, by omega⟩
    rw [hw, hs]
    simp [sync, Stor.data, hb, shift]

theorem Aims.some {w : World B} {vals : Vals B} (h : Rep w.mem w.vec vals) {k x off len : Nat} (ha : Aims w k x off len) :
    ∃ p l, w.win k = Option.some ⟨p, len⟩ ∧ vals x = Option.some l ∧ off + len ≤ l.length := by
  obtain ⟨v, hv, hw, hn⟩ := ha
  obtain ⟨l, hl, hh⟩ := h.holds hv
  have hs := h.synced hv
  have hn' : v.n = l.length := by rw [hs]; exact hh.size
  exact ⟨_, l, hw, hl, by omega⟩

end Istl.BVec
