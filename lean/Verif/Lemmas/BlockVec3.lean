import Verif.Lemmas.BlockVec2

/-! Lemmas for C98: what every call on a vector does. -/

namespace Istl.BVec
variable {B : Type}

/-- The objects named by `c` keep their storage where `Call.Keeps` says so. -/
def Stay (vals : Vals B) (w w' : World B) (c : Call B) : Prop :=
  ∀ x v e, w.vec x = some v → e ≤ v.n → c.Keeps vals x v.st.cap e →
    ∃ v', w'.vec (c.heir x) = some v' ∧ v'.p = v.p ∧ e ≤ v'.n

/-- What a call does: it returns with the right values, or throws leaving the values as said, or was not legal. -/
def Outcome (vini : B) (w : World B) (vals : Vals B) (c : Call B) : Out (World B) Unit → Prop
  | .ok _ w' => Rep w'.mem w'.vec (c.after vini vals) ∧ w'.win = w.win ∧ Stay vals w w' c
  | .throw _ w' => (∃ vals', c.Failed vals vals' ∧ Rep w'.mem w'.vec vals') ∧ w'.win = w.win ∧ Stay vals w w' c ∧ ¬ c.Safe
  | .ub => ¬ c.Legal vals

theorem construct_none {w : World B} {x : Nat} {f : Cmd (Mem B × Stor) Unit} {M : Mem B} {s : Stor}
    (hx : w.vec x = none) (hf : f (w.mem, Stor.empty) = .ok () (M, s)) :
    construct x f w = .ok () ({ w with mem := M }.setVec x (some (sync s))) := by
  unfold construct; rw [hx]; simp only [hf]

theorem construct_throw {w : World B} {x : Nat} {f : Cmd (Mem B × Stor) Unit} {M M' : Mem B} {s : Stor} {e : Exc}
    (hx : w.vec x = none) (hf : f (w.mem, Stor.empty) = .throw e (M, s)) (hr : release M s = .ok M') :
    construct x f w = .throw e { w with mem := M' } := by
  unfold construct; rw [hx]; simp only [hf, hr]

theorem construct_some {w : World B} {x : Nat} {f : Cmd (Mem B × Stor) Unit} {v : Vec} (hx : w.vec x = some v) :
    construct x f w = .ub := by
  unfold construct; rw [hx]

theorem guarded_ok {w : World B} {x : Nat} {f : Cmd (Mem B × Stor) Unit} {M : Mem B} {s : Stor} {v : Vec}
    (hx : w.vec x = some v) (hf : f (w.mem, v.st) = .ok () (M, s)) :
    guarded x f w = .ok () ({ w with mem := M }.setVec x (some (sync s))) := by
  simp only [guarded, withVec, hx, hf]

theorem guarded_throw {w : World B} {x : Nat} {f : Cmd (Mem B × Stor) Unit} {M : Mem B} {s : Stor} {v : Vec} {e : Exc}
    (hx : w.vec x = some v) (hf : f (w.mem, v.st) = .throw e (M, s)) :
    guarded x f w = .throw e ({ w with mem := M }.setVec x (some (sync s))) := by
  simp only [guarded, withVec, hx, hf]

theorem guarded_none {w : World B} {x : Nat} {f : Cmd (Mem B × Stor) Unit} (hx : w.vec x = none) :
    guarded x f w = .ub := by
  simp only [guarded, withVec, hx]

/-- Calls that change only the object `x`: all others stay. -/
theorem stay_update {vals : Vals B} {w w' : World B} {c : Call B} {x : Nat} {o : Option Vec}
    (hw : w'.vec = Function.update w.vec x o) (hh : ∀ y, c.heir y = y)
    (hx : ∀ v e, w.vec x = some v → e ≤ v.n → c.Keeps vals x v.st.cap e → ∃ v', o = some v' ∧ v'.p = v.p ∧ e ≤ v'.n) :
    Stay vals w w' c := by
  intro y v e hv he hk
  rw [hh y, hw]
  by_cases hy : y = x
  · subst hy
    rw [Function.update_self]
    exact hx v e hv he hk
  · rw [Function.update_of_ne hy]
    exact ⟨v, hv, rfl, he⟩

theorem stay_same {vals : Vals B} {w w' : World B} {c : Call B} (hw : w'.vec = w.vec) (hh : ∀ y, c.heir y = y) :
    Stay vals w w' c := by
  intro y v e hv he _
  exact ⟨v, by rw [hh y, hw]; exact hv, rfl, he⟩

theorem sync_eq_of {s s' : Stor} (h : s'.blk = s.blk) : (sync s').p = (sync s).p := by
  show s'.data = s.data
  unfold Stor.data; rw [h]

theorem Trans.replaceStart {M : Mem B} {vec : Nat → Option Vec} {x : Nat} {M' : Mem B} {s' : Stor} {l : List B}
    (hx : vec x = none) (t : Trans M Stor.empty M' s' l) : Trans M (storOf vec x) M' s' l := by
  rw [storOf_none hx]; exact t

/-- A storage that was built and is given back leaves the memory alive as it was. -/
theorem Trans.released {M M' : Mem B} {vec : Nat → Option Vec} {vals : Vals B} {x : Nat} {s' : Stor} {l : List B}
    (h : Rep M vec vals) (hx : vec x = none) (t : Trans M Stor.empty M' s' l) :
    ∃ M'', release M' s' = .ok M'' ∧ Rep M'' vec vals := by
  have h1 := h.update (t.replaceStart hx)
  obtain ⟨M'', h2, h3⟩ := h1.remove (x := x) (v := sync s') (Function.update_self ..)
  refine ⟨M'', h2, ?_⟩
  rw [Function.update_idem, Function.update_idem] at h3
  rw [show Function.update vec x none = vec by rw [← hx, Function.update_eq_self],
    show Function.update vals x none = vals by rw [← h.gone x hx, Function.update_eq_self]] at h3
  exact h3

/-- A constructor around an operation that either succeeds or leaves an object that can be destroyed. -/
theorem construct_outcome {vini : B} {w : World B} {vals : Vals B} {c : Call B} {x : Nat} {l : List B}
    {f : Cmd (Mem B × Stor) Unit} (h : Rep w.mem w.vec vals) (hh : ∀ y, c.heir y = y) (hleg : vals x ≠ none → ¬ c.Legal vals)
    (hafter : w.vec x = none → c.after vini vals = Function.update vals x (some l))
    (hfail : ¬ c.Safe → c.Failed vals vals)
    (hf : (∃ M' s', f (w.mem, Stor.empty) = .ok () (M', s') ∧ Trans w.mem Stor.empty M' s' l) ∨
      (∃ e M' s' k, f (w.mem, Stor.empty) = .throw e (M', s') ∧ Trans w.mem Stor.empty M' s' k ∧ ¬ c.Safe)) :
    Outcome vini w vals c (construct x f w) := by
  cases hx : w.vec x with
  | some v =>
    rw [construct_some hx]
    obtain ⟨k, hk, _⟩ := h.obj x v hx
    exact hleg (by rw [hk]; simp)
  | none =>
    rcases hf with ⟨M', s', h1, h2⟩ | ⟨e, M', s', k, h1, h2, h3⟩
    · rw [construct_none hx h1]
      refine ⟨?_, rfl, ?_⟩
      · rw [hafter hx]
        exact h.update (h2.replaceStart hx)
      · refine stay_update (x := x) rfl hh ?_
        intro v e hv
        rw [hx] at hv; cases hv
    · obtain ⟨M'', h4, h5⟩ := h2.released h hx
      rw [construct_throw hx h1 h4]
      exact ⟨⟨vals, hfail h3, h5⟩, rfl, stay_same rfl hh, h3⟩

theorem run_ctor (vini : B) (w : World B) (vals : Vals B) (lk lk' : Luck) (h : Rep w.mem w.vec vals) (x : Nat) :
    Outcome vini w vals (.ctor x) ((Call.ctor x).run vini lk lk' w) := by
  refine construct_outcome (c := .ctor x) (x := x) (f := pure ()) (l := []) h (fun _ => rfl) (fun h hl => h hl) (fun _ => rfl) (fun h => absurd True.intro h) ?_
  left
  exact ⟨w.mem, Stor.empty, rfl, Trans.refl (holds_empty _)⟩

theorem resized_nil (vini : B) (n : Nat) : resized vini n ([] : List B) = List.replicate n vini := by
  unfold resized; simp

theorem run_ctorSize (vini : B) (w : World B) (vals : Vals B) (lk lk' : Luck) (h : Rep w.mem w.vec vals) (x n : Nat) :
    Outcome vini w vals (.ctorSize x n) ((Call.ctorSize x n).run vini lk lk' w) := by
  refine construct_outcome (l := List.replicate n vini) h (fun _ => rfl) (fun h hl => h hl) (fun _ => rfl) (fun _ => rfl) ?_
  rcases vResize_spec vini lk (holds_empty w.mem) n with ⟨M', s', h1, h2, _⟩ | ⟨e, h1, _⟩
  · left; exact ⟨M', s', h1, by rw [← resized_nil]; exact h2⟩
  · right; exact ⟨e, w.mem, Stor.empty, [], h1, Trans.refl (holds_empty _), fun h => h⟩

theorem run_ctorList (vini : B) (w : World B) (vals : Vals B) (lk lk' : Luck) (h : Rep w.mem w.vec vals) (x : Nat)
    (l : List B) : Outcome vini w vals (.ctorList x l) ((Call.ctorList x l).run vini lk lk' w) := by
  refine construct_outcome (l := l) h (fun _ => rfl) (fun h hl => h hl) (fun _ => rfl) (fun _ => rfl) ?_
  rcases vAssign_spec lk (holds_empty w.mem) l with ⟨M', s', h1, h2, _⟩ | ⟨e, M', s', j, h1, _, _, h2, _⟩
  · left; exact ⟨M', s', h1, h2⟩
  · right; exact ⟨e, M', s', _, h1, h2, fun h => h⟩

theorem Trans.trans {M M' M'' : Mem B} {s s' s'' : Stor} {l l' : List B} (t : Trans M s M' s' l)
    (t' : Trans M' s' M'' s'' l') (hfresh : ∀ b, s'.blk = some b → s.blk = some b ∨ b ≥ M.length) :
    Trans M s M'' s'' l' := by
  refine ⟨t'.holds, ?_, ?_, ?_⟩
  · intro b k hk hne
    refine t'.keep b k (t.keep b k hk hne) ?_
    intro hb
    rcases hfresh b hb with h | h
    · exact hne h
    · exact absurd (List.getElem?_eq_some_iff.1 hk).1 (by omega)
  · intro b hb
    rcases t'.own b hb with h | h
    · exact t.own b h
    · by_cases hs : s.blk = some b
      · exact Or.inl hs
      · right
        intro k hk
        exact h k (t.keep b k hk hs)
  · intro b k hk
    rcases t'.leak b k hk with h | ⟨h1, h2⟩
    · exact Or.inl h
    · rcases t.leak b k h2 with h3 | h3
      · exact absurd h3 h1
      · exact Or.inr h3

theorem Trans.start {M M' : Mem B} {s' : Stor} {l : List B} (t : Trans M Stor.empty M' s' l) :
    ∀ b, s'.blk = some b → ∀ k, M[b]? ≠ some (some k) := by
  intro b hb
  rcases t.own b hb with h | h
  · cases h
  · exact h

theorem Trans.trans_empty {M M' M'' : Mem B} {s' s'' : Stor} {l l' : List B} (t : Trans M Stor.empty M' s' l)
    (t' : Trans M' s' M'' s'' l') : Trans M Stor.empty M'' s'' l' := by
  refine ⟨t'.holds, ?_, ?_, ?_⟩
  · intro b k hk hne
    exact t'.keep b k (t.keep b k hk hne) (fun hb => t.start b hb k hk)
  · intro b hb
    right
    intro k hk
    rcases t'.own b hb with h | h
    · exact t.start b h k hk
    · exact h k (t.keep b k hk (by simp [Stor.empty]))
  · intro b k hk
    rcases t'.leak b k hk with h | ⟨h1, h2⟩
    · exact Or.inl h
    · rcases t.leak b k h2 with h3 | h3
      · exact absurd h3 h1
      · exact Or.inr h3

theorem run_ctorCap (vini : B) (w : World B) (vals : Vals B) (lk lk' : Luck) (h : Rep w.mem w.vec vals) (x n c : Nat) :
    Outcome vini w vals (.ctorCap x n c) ((Call.ctorCap x n c).run vini lk lk' w) := by
  refine construct_outcome (l := List.replicate n vini) h (fun _ => rfl) (fun h hl => h hl) (fun _ => rfl) (fun _ => rfl) ?_
  rw [← resized_nil]
  by_cases hc : c > n
  · rcases vReserve_spec lk (holds_empty w.mem) c with ⟨M', s', h1, h2, _⟩ | ⟨e, h1, _⟩
    · rcases vResize_spec vini lk' h2.holds n with ⟨M'', s'', h3, h4, _⟩ | ⟨e, h3, _⟩
      · left
        refine ⟨M'', s'', ?_, h2.trans_empty h4⟩
        simp only [if_pos hc]
        rw [Cmd.bind_ok h1]; exact h3
      · right
        refine ⟨e, M', s', [], ?_, h2, fun h => h⟩
        simp only [if_pos hc]
        rw [Cmd.bind_ok h1]; exact h3
    · right
      refine ⟨e, w.mem, Stor.empty, [], ?_, Trans.refl (holds_empty _), fun h => h⟩
      simp only [if_pos hc]
      rw [Cmd.bind_throw h1]
  · rcases vResize_spec vini lk' (holds_empty w.mem) n with ⟨M', s', h1, h2, _⟩ | ⟨e, h1, _⟩
    · left
      refine ⟨M', s', ?_, h2⟩
      simp only [if_neg hc]
      exact h1
    · right
      refine ⟨e, w.mem, Stor.empty, [], ?_, Trans.refl (holds_empty _), fun h => h⟩
      simp only [if_neg hc]
      exact h1

theorem run_ctorCopy (vini : B) (w : World B) (vals : Vals B) (lk lk' : Luck) (h : Rep w.mem w.vec vals) (x y : Nat) :
    Outcome vini w vals (.ctorCopy x y) ((Call.ctorCopy x y).run vini lk lk' w) := by
  show Outcome vini w vals (.ctorCopy x y) (ctorCopy lk x y w)
  unfold ctorCopy
  unfold withVec
  cases hy : w.vec y with
  | none =>
    simp only [hy]
    exact fun hl => hl.2 (h.gone y hy)
  | some u =>
    obtain ⟨l, hl, hu⟩ := h.holds hy
    simp only [hy, hu.elems]
    refine construct_outcome (l := l) h (fun _ => rfl) (fun h hl => h hl.1) ?_ (fun _ => rfl) ?_
    · intro _
      show Function.update vals x (vals y) = _
      rw [hl]
    rcases vAssign_spec lk (holds_empty w.mem) l with ⟨M', s', h1, h2, _⟩ | ⟨e, M', s', j, h1, _, _, h2, _⟩
    · left; exact ⟨M', s', h1, h2⟩
    · right; exact ⟨e, M', s', _, h1, h2, fun h => h⟩

theorem run_reserve (vini : B) (w : World B) (vals : Vals B) (lk lk' : Luck) (h : Rep w.mem w.vec vals) (x c : Nat) :
    Outcome vini w vals (.reserve x c) ((Call.reserve x c).run vini lk lk' w) := by
  show Outcome vini w vals (.reserve x c) (guarded x (vReserve lk c) w)
  cases hx : w.vec x with
  | none => rw [guarded_none hx]; exact fun hl => hl (h.gone x hx)
  | some v =>
    obtain ⟨l, hl, hv⟩ := h.holds hx
    rcases vReserve_spec lk hv c with ⟨M', s', h1, h2, h3, h4⟩ | ⟨e, h1, _⟩
    · rw [guarded_ok hx h1]
      refine ⟨?_, rfl, ?_⟩
      · have := h.update (x := x) (by rw [storOf_some hx]; exact h2)
        rw [← hl, Function.update_eq_self] at this
        exact this
      · refine stay_update (x := x) rfl (fun _ => rfl) ?_
        intro v' e hv' he hk
        rw [hx] at hv'; injection hv' with hv'; subst hv'
        have := h4 (hk rfl)
        subst this
        rw [h.synced hx] at he ⊢
        exact ⟨_, rfl, rfl, he⟩
    · rw [guarded_throw hx h1, ← h.synced hx]
      have hset : ({ w with mem := w.mem } : World B).setVec x (some v) = w := by
        unfold World.setVec
        rw [← hx, Function.update_eq_self]
      rw [hset]
      exact ⟨⟨vals, rfl, h⟩, rfl, stay_same rfl (fun _ => rfl), fun h => h⟩

theorem run_resize (vini : B) (w : World B) (vals : Vals B) (lk lk' : Luck) (h : Rep w.mem w.vec vals) (x k : Nat) :
    Outcome vini w vals (.resize x k) ((Call.resize x k).run vini lk lk' w) := by
  show Outcome vini w vals (.resize x k) (guarded x (vResize vini lk k) w)
  cases hx : w.vec x with
  | none => rw [guarded_none hx]; exact fun hl => hl (h.gone x hx)
  | some v =>
    obtain ⟨l, hl, hv⟩ := h.holds hx
    rcases vResize_spec vini lk hv k with ⟨M', s', h1, h2, h4⟩ | ⟨e, h1, _⟩
    · rw [guarded_ok hx h1]
      refine ⟨?_, rfl, ?_⟩
      · have := h.update (x := x) (by rw [storOf_some hx]; exact h2)
        show Rep M' _ (Function.update vals x ((vals x).map (resized vini k)))
        rw [hl]; exact this
      · refine stay_update (x := x) rfl (fun _ => rfl) ?_
        intro v' e hv' he hk
        rw [hx] at hv'; injection hv' with hv'; subst hv'
        obtain ⟨hk1, hk2⟩ := hk rfl
        have hb := (h4 hk1).1
        have hsz : s'.size = k := by
          rw [h2.holds.size]; unfold resized; simp
          omega
        refine ⟨_, rfl, ?_, by show e ≤ s'.size; omega⟩
        rw [h.synced hx]
        exact sync_eq_of hb
    · rw [guarded_throw hx h1, ← h.synced hx]
      have hset : ({ w with mem := w.mem } : World B).setVec x (some v) = w := by
        unfold World.setVec
        rw [← hx, Function.update_eq_self]
      rw [hset]
      exact ⟨⟨vals, rfl, h⟩, rfl, stay_same rfl (fun _ => rfl), fun h => h⟩

theorem run_assign (vini : B) (w : World B) (vals : Vals B) (lk lk' : Luck) (h : Rep w.mem w.vec vals) (x y : Nat) :
    Outcome vini w vals (.assign x y) ((Call.assign x y).run vini lk lk' w) := by
  show Outcome vini w vals (.assign x y) (assign lk x y w)
  unfold assign
  unfold withVec
  cases hy : w.vec y with
  | none =>
    simp only [hy]
    exact fun hl => hl.2 (h.gone y hy)
  | some u =>
    obtain ⟨ly, hly, hu⟩ := h.holds hy
    simp only [hy, hu.elems]
    by_cases hxy : x = y
    · rw [if_pos hxy]
      subst hxy
      rw [guarded_ok (f := pure ()) hy (rfl : _ = Out.ok () (w.mem, u.st)), ← h.synced hy]
      have hset : ({ w with mem := w.mem } : World B).setVec x (some u) = w := by
        unfold World.setVec
        rw [← hy, Function.update_eq_self]
      rw [hset]
      refine ⟨?_, rfl, stay_same rfl (fun _ => rfl)⟩
      show Rep _ _ (Function.update vals x (vals x))
      rw [Function.update_eq_self]; exact h
    · rw [if_neg hxy]
      cases hx : w.vec x with
      | none => rw [guarded_none hx]; exact fun hl => hl.1 (h.gone x hx)
      | some v =>
        obtain ⟨l, hl, hv⟩ := h.holds hx
        rcases vAssign_spec lk hv ly with ⟨M', s', h1, h2, h4⟩ | ⟨e, M', s', j, h1, hj1, hj2, h2, h4⟩
        · rw [guarded_ok hx h1]
          refine ⟨?_, rfl, ?_⟩
          · have := h.update (x := x) (by rw [storOf_some hx]; exact h2)
            show Rep M' _ (Function.update vals x (vals y))
            rw [hly]; exact this
          · refine stay_update (x := x) rfl (fun _ => rfl) ?_
            intro v' e hv' he hk
            rw [hx] at hv'; injection hv' with hv'; subst hv'
            obtain ⟨k, hk0, hk1, hk2⟩ := hk rfl (fun e => hxy e.symm)
            rw [hly] at hk0; injection hk0 with hk0; subst hk0
            have hb := (h4 hk1).1
            refine ⟨_, rfl, ?_, by show e ≤ s'.size; rw [h2.holds.size]; omega⟩
            rw [h.synced hx]
            exact sync_eq_of hb
        · rw [guarded_throw hx h1]
          refine ⟨⟨_, ⟨l, ly, j, hl, hly, rfl, hj1, hj2⟩, ?_⟩, rfl, ?_, fun h => h⟩
          · exact h.update (x := x) (by rw [storOf_some hx]; exact h2)
          · refine stay_update (x := x) rfl (fun _ => rfl) ?_
            intro v' e hv' he hk
            rw [hx] at hv'; injection hv' with hv'; subst hv'
            refine ⟨_, rfl, ?_, ?_⟩
            · conv_rhs => rw [h.synced hx]
              exact sync_eq_of h4.1
            · show e ≤ s'.size
              rw [h2.holds.size]
              have hn : v.n = l.length := by
                rw [h.synced hx]; exact hv.size
              simp
              omega

theorem swap_run {w : World B} {vals : Vals B} (h : Rep w.mem w.vec vals) {x y : Nat} {v u : Vec}
    (hx : w.vec x = some v) (hy : w.vec y = some u) :
    swap x y w = .ok () { w with vec := Function.update (Function.update w.vec x (w.vec y)) y (w.vec x) } := by
  unfold swap
  unfold withVec
  simp only [hx, hy]
  by_cases hxy : x = y
  · rw [if_pos hxy]
    subst hxy
    simp only [World.setVec]
    rw [← h.synced hx, ← hx, Function.update_idem, Function.update_eq_self]
  · rw [if_neg hxy]
    simp only [World.setVec]
    rw [← h.synced hx, ← h.synced hy, ← hx, ← hy]

theorem stay_exch {vals : Vals B} {w : World B} {c : Call B} {x y : Nat} (hc : ∀ z, c.heir z = if z = x then y else if z = y then x else z) :
    Stay vals w { w with vec := Function.update (Function.update w.vec x (w.vec y)) y (w.vec x) } c := by
  intro z v e hv he _
  refine ⟨v, ?_, rfl, he⟩
  show (Function.update (Function.update w.vec x (w.vec y)) y (w.vec x)) _ = _
  rw [update_exch, hc z]
  show w.vec (exch x y (exch x y z)) = _
  rw [exch_invol]; exact hv

theorem run_swap (vini : B) (w : World B) (vals : Vals B) (lk lk' : Luck) (h : Rep w.mem w.vec vals) (x y : Nat) :
    Outcome vini w vals (.swap x y) ((Call.swap x y).run vini lk lk' w) := by
  show Outcome vini w vals (.swap x y) (swap x y w)
  cases hx : w.vec x with
  | none =>
    have : swap x y w = .ub := by
      simp only [swap, withVec, hx]
    rw [this]; exact fun hl => hl.1 (h.gone x hx)
  | some v =>
    cases hy : w.vec y with
    | none =>
      have : swap x y w = .ub := by
        simp only [swap, withVec, hx, hy]
      rw [this]; exact fun hl => hl.2 (h.gone y hy)
    | some u =>
      rw [swap_run h hx hy]
      exact ⟨h.exchange x y, rfl, stay_exch (fun _ => rfl)⟩

theorem run_assignMove (vini : B) (w : World B) (vals : Vals B) (lk lk' : Luck) (h : Rep w.mem w.vec vals) (x y : Nat) :
    Outcome vini w vals (.assignMove x y) ((Call.assignMove x y).run vini lk lk' w) := by
  have := run_swap vini w vals lk lk' h x y
  show Outcome vini w vals (.assignMove x y) (swap x y w)
  change Outcome vini w vals (.swap x y) (swap x y w) at this
  cases hs : swap x y w with
  | ok a w' => rw [hs] at this; exact this
  | throw e w' => rw [hs] at this; exact absurd True.intro this.2.2.2
  | ub => rw [hs] at this; exact this

theorem run_ctorMove (vini : B) (w : World B) (vals : Vals B) (lk lk' : Luck) (h : Rep w.mem w.vec vals) (x y : Nat) :
    Outcome vini w vals (.ctorMove x y) ((Call.ctorMove x y).run vini lk lk' w) := by
  show Outcome vini w vals (.ctorMove x y) (ctorMove x y w)
  unfold ctorMove
  cases hx : w.vec x with
  | some v =>
    rw [Cmd.bind_ub (construct_some hx)]
    intro hl
    obtain ⟨k, hk, _⟩ := h.obj x v hx
    rw [hl.1] at hk; cases hk
  | none =>
    have h1 : construct (B := B) x (pure ()) w = .ok () (w.setVec x (some (sync Stor.empty))) :=
      construct_none hx rfl
    rw [Cmd.bind_ok h1]
    have h2 : Rep w.mem (Function.update w.vec x (some (sync Stor.empty))) (Function.update vals x (some [])) :=
      h.update (by rw [storOf_none hx]; exact Trans.refl (holds_empty _))
    have hvx : (w.setVec x (some (sync Stor.empty))).vec x = some (sync Stor.empty) := Function.update_self ..
    by_cases hxy : x = y
    · subst hxy
      rw [swap_run h2 hvx hvx]
      refine ⟨?_, rfl, ?_⟩
      · have h3 := h2.exchange x x
        show Rep w.mem _ (Function.update (Function.update vals x (vals x)) x (some []))
        rw [Function.update_idem, Function.update_idem, Function.update_idem] at h3
        simp only [Function.update_self] at h3
        rw [hvx]
        show Rep w.mem (Function.update (Function.update (Function.update w.vec x _) x _) x _) _
        rw [Function.update_idem, Function.update_idem, Function.update_idem]
        rw [Function.update_idem] at h3
        exact h3
      · intro z v e hv he _
        have hz : z ≠ x := by intro e; subst e; rw [hx] at hv; cases hv
        refine ⟨v, ?_, rfl, he⟩
        show (Function.update (Function.update (w.setVec x (some (sync Stor.empty))).vec x _) x _) (if z = x then x else z) = _
        rw [if_neg hz, Function.update_of_ne hz, Function.update_of_ne hz]
        show Function.update w.vec x _ z = _
        rw [Function.update_of_ne hz]; exact hv
    · cases hy : w.vec y with
      | none =>
        have : swap x y (w.setVec x (some (sync Stor.empty))) = .ub := by
          have : (w.setVec x (some (sync Stor.empty))).vec y = none := by
            show Function.update w.vec x _ y = none
            rw [Function.update_of_ne (fun e => hxy e.symm)]; exact hy
          simp only [swap, withVec, hvx, this]
        rw [this]; exact fun hl => hl.2 (h.gone y hy)
      | some u =>
        have hvy : (w.setVec x (some (sync Stor.empty))).vec y = some u := by
          show Function.update w.vec x _ y = some u
          rw [Function.update_of_ne (fun e => hxy e.symm)]; exact hy
        rw [swap_run h2 hvx hvy]
        refine ⟨?_, rfl, ?_⟩
        · have h3 := h2.exchange x y
          rw [Function.update_self, Function.update_of_ne (fun e => hxy e.symm), Function.update_idem,
            Function.update_self, Function.update_of_ne (fun e => hxy e.symm) _ vals, Function.update_idem] at h3
          show Rep w.mem _ (Function.update (Function.update vals x (vals y)) y (some []))
          rw [hvx, hvy]
          rw [hy] at h3
          show Rep w.mem (Function.update (Function.update (Function.update w.vec x _) x _) y _) _
          rw [Function.update_idem]
          exact h3
        · intro z v e hv he _
          have hz : z ≠ x := by intro e; subst e; rw [hx] at hv; cases hv
          refine ⟨v, ?_, rfl, he⟩
          show (Function.update (Function.update (w.setVec x (some (sync Stor.empty))).vec x _) y _) (if z = y then x else z) = _
          by_cases hzy : z = y
          · rw [if_pos hzy, Function.update_of_ne hxy, Function.update_self, hvy, ← hv, hzy, hy]
          · rw [if_neg hzy, Function.update_of_ne hzy, Function.update_of_ne hz]
            show Function.update w.vec x _ z = _
            rw [Function.update_of_ne hz]; exact hv

theorem run_dtor (vini : B) (w : World B) (vals : Vals B) (lk lk' : Luck) (h : Rep w.mem w.vec vals) (x : Nat) :
    Outcome vini w vals (.dtor x) ((Call.dtor x).run vini lk lk' w) := by
  show Outcome vini w vals (.dtor x) (dtor x w)
  unfold dtor
  unfold withVec
  cases hx : w.vec x with
  | none => simp only [hx]; exact fun hl => hl (h.gone x hx)
  | some v =>
    obtain ⟨M', h1, h2⟩ := h.remove hx
    simp only [hx, h1]
    refine ⟨h2, rfl, ?_⟩
    refine stay_update (x := x) rfl (fun _ => rfl) ?_
    intro v' e _ _ hk
    exact absurd rfl hk

theorem run_put (vini : B) (w : World B) (vals : Vals B) (lk lk' : Luck) (h : Rep w.mem w.vec vals) (x i : Nat) (b : B) :
    Outcome vini w vals (.put x i b) ((Call.put x i b).run vini lk lk' w) := by
  show Outcome vini w vals (.put x i b) (put x i b w)
  unfold put
  unfold withVec
  cases hx : w.vec x with
  | none =>
    simp only [hx]
    rintro ⟨l, hl, _⟩
    rw [h.gone x hx] at hl; cases hl
  | some v =>
    obtain ⟨l, hl, hv⟩ := h.holds hx
    simp only [hx, onMem]
    have hp : v.p = v.st.data := by rw [h.synced hx]; rfl
    rcases store_total w.mem v.p i b with ⟨M', hs⟩ | hs
    · obtain ⟨blk, off, k, h1, h2, h3, h4⟩ := store_inv hs
      cases hb : v.st.blk with
      | none => rw [hp, Stor.data, hb] at h1; cases h1
      | some b' =>
        rw [hp, Stor.data, hb] at h1
        injection h1 with h1
        injection h1 with h1 h1'
        subst h1; subst h1'
        have hk : k = l := by
          have := hv.get hb
          rw [h2] at this
          injection this with this
          injection this
        subst hk
        simp only [hs]
        refine ⟨?_, rfl, stay_same rfl (fun _ => rfl)⟩
        have := h.content hx hb hl (l' := k.set (0 + i) b) (by simp)
        rw [h4]
        show Rep _ _ (Function.update vals x ((vals x).map fun l => l.set i b))
        rw [hl]
        rw [Nat.zero_add] at this ⊢
        exact this
    · simp only [hs]
      rintro ⟨k, hk, hi⟩
      rw [hl] at hk; injection hk with hk; subst hk
      cases hb : v.st.blk with
      | none => rw [(hv.nil hb).1] at hi; exact absurd hi (by simp)
      | some b' =>
        rw [hp, Stor.data, hb] at hs
        have := store_ok (off := 0) (i := i) (hv.get hb) (by omega) b
        simp only [Option.map_some] at hs
        rw [this] at hs; cases hs

theorem fill_whole {w : World B} {vals : Vals B} (h : Rep w.mem w.vec vals) {x : Nat} {v : Vec} (hx : w.vec x = some v)
    {l : List B} (hl : vals x = some l) (b : B) :
    ∃ M', fillBase w.mem v.p v.n b = .ok M' ∧ Rep M' w.vec (Function.update vals x (some (List.replicate l.length b))) := by
  obtain ⟨k, hk, hv⟩ := h.holds hx
  rw [hl] at hk; injection hk with hk; subst hk
  have hp : v.p = v.st.data := by rw [h.synced hx]; rfl
  have hn : v.n = l.length := by
    rw [h.synced hx]; exact hv.size
  cases hb : v.st.blk with
  | none =>
    have := (hv.nil hb).1
    subst this
    refine ⟨w.mem, by rw [hn]; rfl, ?_⟩
    rw [show (List.replicate ([] : List B).length b) = [] from rfl, ← hl, Function.update_eq_self]
    exact h
  | some c =>
    refine ⟨_, ?_, h.content hx hb hl (l' := List.replicate l.length b) (by simp)⟩
    rw [hp, Stor.data, hb, hn, Option.map_some, fillBase_ok (hv.get hb) (by omega) b]
    simp

theorem run_fill (vini : B) (w : World B) (vals : Vals B) (lk lk' : Luck) (h : Rep w.mem w.vec vals) (x : Nat) (b : B) :
    Outcome vini w vals (.fill x b) ((Call.fill x b).run vini lk lk' w) := by
  show Outcome vini w vals (.fill x b) (fill x b w)
  unfold fill
  unfold withVec
  cases hx : w.vec x with
  | none => simp only [hx]; exact fun hl => hl (h.gone x hx)
  | some v =>
    obtain ⟨l, hl, hv⟩ := h.holds hx
    obtain ⟨M', h1, h2⟩ := fill_whole h hx hl b
    simp only [hx, onMem, h1]
    refine ⟨?_, rfl, stay_same rfl (fun _ => rfl)⟩
    show Rep _ _ (Function.update vals x ((vals x).map fun l => List.replicate l.length b))
    rw [hl]; exact h2

/-- What every call does. -/
theorem run_outcome (vini : B) (w : World B) (vals : Vals B) (lk lk' : Luck) (h : Rep w.mem w.vec vals) (c : Call B) :
    Outcome vini w vals c (c.run vini lk lk' w) := by
  cases c with
  | ctor x => exact run_ctor vini w vals lk lk' h x
  | ctorSize x n => exact run_ctorSize vini w vals lk lk' h x n
  | ctorList x l => exact run_ctorList vini w vals lk lk' h x l
  | ctorCap x n c => exact run_ctorCap vini w vals lk lk' h x n c
  | ctorCopy x y => exact run_ctorCopy vini w vals lk lk' h x y
  | ctorMove x y => exact run_ctorMove vini w vals lk lk' h x y
  | reserve x c => exact run_reserve vini w vals lk lk' h x c
  | resize x n => exact run_resize vini w vals lk lk' h x n
  | assign x y => exact run_assign vini w vals lk lk' h x y
  | assignMove x y => exact run_assignMove vini w vals lk lk' h x y
  | swap x y => exact run_swap vini w vals lk lk' h x y
  | dtor x => exact run_dtor vini w vals lk lk' h x
  | put x i b => exact run_put vini w vals lk lk' h x i b
  | fill x b => exact run_fill vini w vals lk lk' h x b

end Istl.BVec
