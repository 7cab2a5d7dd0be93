import Verif.Lemmas.BlockVec4

/-!
# C98: `BlockVector` has value semantics, its windows reference semantics, over every history

Stated in `Verif.Spec.BlockVec`: `Sees w vals` says that `size()` and `operator[]` of every object show the lists `vals`;
`Call.after` is the effect of a call on these lists, `Reach` the states of all histories of calls on vectors and windows,
with allocations and copies of elements failing wherever the environment (`Luck`) decides.
-/

namespace Istl.BVec
variable {B : Type}

/-- Every call a program may make is defined. It returns with the values its name says, other objects unchanged, or it
throws; then the values are unchanged (an assignment may have overwritten leading blocks of its target). Moves, swaps,
element access, filling and destruction never throw. -/
theorem C98_calls (vini : B) {w : World B} (hw : Reach vini w) {vals : Vals B} (hs : Sees w vals) (lk lk' : Luck)
    (c : Call B) (hc : c.Legal vals) :
    (∃ w', c.run vini lk lk' w = .ok () w' ∧ Sees w' (c.after vini vals)) ∨
    (∃ e w' vals', c.run vini lk lk' w = .throw e w' ∧ Sees w' vals' ∧ c.Failed vals vals' ∧ ¬ c.Safe) := by
  have h := run_outcome vini w vals lk lk' (hw.rep_of hs) c
  cases hr : c.run vini lk lk' w with
  | ok a w' => rw [hr] at h; left; exact ⟨w', rfl, h.1.sees⟩
  | throw e w' =>
    rw [hr] at h
    obtain ⟨⟨vals', h1, h2⟩, _, _, h3⟩ := h
    right; exact ⟨e, w', vals', rfl, h2.sees, h1, h3⟩
  | ub => rw [hr] at h; exact absurd hc h

/-- Every reachable state shows values: `size()` is the number of blocks that can be accessed, whatever threw before. -/
theorem C98_consistent (vini : B) {w : World B} (hw : Reach vini w) : ∃ vals, Sees w vals :=
  let ⟨vals, h⟩ := hw.rep; ⟨vals, h.sees⟩

/-- No memory is lost and none is shared: a block of memory that is alive is the storage of exactly one object; when no
object is left, no memory is. -/
theorem C98_memory (vini : B) {w : World B} (hw : Reach vini w) (b : Nat) (l : List B) (hb : w.mem[b]? = some (some l)) :
    ∃! x, ∃ v, w.vec x = some v ∧ v.st.blk = some b := by
  obtain ⟨vals, h⟩ := hw.rep
  obtain ⟨x, v, h1, h2⟩ := h.owned b l hb
  refine ⟨x, ⟨v, h1, h2⟩, ?_⟩
  rintro y ⟨u, h3, h4⟩
  exact h.inj y x u v b h3 h1 h4 h2

/-- After `reserve(c)` the capacity is at least `c`; resizing within the capacity needs no memory: it can fail only if the
construction of an element throws. -/
theorem C98_capacity (vini : B) {w : World B} (hw : Reach vini w) (lk : Luck) (x c : Nat) :
    (∀ w', reserve lk x c w = .ok () w' → ∃ k, capacity w' x = some k ∧ c ≤ k) ∧
    (∀ n e w', capacity w x = some c → n ≤ c → resize vini lk x n w = .throw e w' → lk.fails ≠ none) ∧
    (∀ n w', capacity w x = some c → n ≤ c → resize vini lk x n w = .ok () w' → capacity w' x = some c) := by
  obtain ⟨vals, h⟩ := hw.rep
  cases hx : w.vec x with
  | none =>
    refine ⟨fun w' e => ?_, fun n e w' hc => ?_, fun n w' hc => ?_⟩
    · unfold reserve at e; rw [guarded_none hx] at e; cases e
    · simp [capacity, hx] at hc
    · simp [capacity, hx] at hc
  | some v =>
    obtain ⟨l, hl, hv⟩ := h.holds hx
    refine ⟨fun w' e => ?_, fun n e w' hc hn hr => ?_, fun n w' hc hn hr => ?_⟩
    · rcases vReserve_spec lk hv c with ⟨M', s', h1, h2, h3, h4⟩ | ⟨e', h1, _⟩
      · unfold reserve at e
        rw [guarded_ok hx h1] at e
        injection e with _ e
        subst e
        exact ⟨s'.cap, by simp [capacity, World.setVec, sync], h3⟩
      · unfold reserve at e
        rw [guarded_throw hx h1] at e; cases e
    · have hcap : v.st.cap = c := by simpa [capacity, hx] using hc
      rcases vResize_spec vini lk hv n with ⟨M', s', h1, h2, h3⟩ | ⟨e', h1, h3⟩
      · unfold resize at hr
        rw [guarded_ok hx h1] at hr; cases hr
      · exact h3 (by omega)
    · have hcap : v.st.cap = c := by simpa [capacity, hx] using hc
      rcases vResize_spec vini lk hv n with ⟨M', s', h1, h2, h3⟩ | ⟨e', h1, h3⟩
      · unfold resize at hr
        rw [guarded_ok hx h1] at hr
        injection hr with _ hr
        subst hr
        simp [capacity, World.setVec, sync, (h3 (by omega)).2, hcap]
      · unfold resize at hr
        rw [guarded_throw hx h1] at hr; cases hr

/-- `BlockVector(n, capacity)` has room for `capacity` blocks. -/
theorem C98_capacity_ctor (vini : B) {w : World B} (hw : Reach vini w) (lk lk' : Luck) (x n c : Nat) {w' : World B}
    (h : ctorCap vini lk lk' x n c w = .ok () w') : ∃ k, capacity w' x = some k ∧ c ≤ k ∧ n ≤ k := by
  obtain ⟨vals, hr⟩ := hw.rep
  unfold ctorCap at h
  cases hx : w.vec x with
  | some v => rw [construct_some hx] at h; cases h
  | none =>
    have key : ∀ (f : Cmd (Mem B × Stor) Unit), construct x f w = .ok () w' →
        ∃ M s, f (w.mem, Stor.empty) = .ok () (M, s) ∧ w' = ({ w with mem := M } : World B).setVec x (some (sync s)) := by
      intro f hf
      unfold construct at hf
      rw [hx] at hf
      cases hfo : f (w.mem, Stor.empty) with
      | ok a t =>
        obtain ⟨M, s⟩ := t
        simp only [hfo] at hf
        injection hf with _ hf
        exact ⟨M, s, rfl, hf.symm⟩
      | throw e t =>
        obtain ⟨M, s⟩ := t
        simp only [hfo] at hf
        cases hrel : release M s <;> simp only [hrel] at hf <;> cases hf
      | ub => simp only [hfo] at hf; cases hf
    obtain ⟨M, s, h1, h2⟩ := key _ h
    refine ⟨s.cap, by rw [h2]; simp [capacity, World.setVec, sync], ?_⟩
    by_cases hc : c > n
    · simp only [if_pos hc] at h1
      rcases vReserve_spec lk (holds_empty w.mem) c with ⟨M1, s1, h3, h4, h5, _⟩ | ⟨e, h3, _⟩
      · rw [Cmd.bind_ok h3] at h1
        rcases vResize_spec vini lk' h4.holds n with ⟨M2, s2, h6, h7, h8⟩ | ⟨e, h6, _⟩
        · rw [h6] at h1
          injection h1 with _ h1
          injection h1 with h1 h1'
          subst h1'
          have := (h8 (by omega)).2
          omega
        · rw [h6] at h1; cases h1
      · rw [Cmd.bind_throw h3] at h1; cases h1
    · simp only [if_neg hc] at h1
      rcases vResize_spec vini lk' (holds_empty w.mem) n with ⟨M2, s2, h6, h7, h8⟩ | ⟨e, h6, _⟩
      · replace h1 : vResize vini lk' n (w.mem, Stor.empty) = .ok () (M, s) := h1
        rw [h6] at h1
        injection h1 with _ h1
        injection h1 with h1 h1'
        subst h1'
        have := h7.holds.cap
        rw [resized_nil] at this
        simp at this
        omega
      · replace h1 : vResize vini lk' n (w.mem, Stor.empty) = .ok () (M, s) := h1
        rw [h6] at h1; cases h1

/-! ### Windows -/

/-- A window put on a vector is a view of that part; a copied window is the same view. -/
theorem C98_window_made (vini : B) {w : World B} (hw : Reach vini w) {vals : Vals B} (hs : Sees w vals) {x : Nat} {l : List B}
    (hl : vals x = some l) (k off len : Nat) (hle : off + len ≤ l.length) :
    ∃ w', winAt k x off len w = .ok () w' ∧ Aims w' k x off len ∧ Sees w' vals ∧
      ∀ g, ∃ w'', winCopy g k w' = .ok () w'' ∧ Aims w'' g x off len ∧ Sees w'' vals := by
  have h := hw.rep_of hs
  obtain ⟨v, hv, hsy, hh⟩ := h.live hl
  have hn : v.n = l.length := by rw [hsy]; exact hh.size
  refine ⟨w.setWin k ⟨shift v.p off, len⟩, by simp only [winAt, withVec, hv], ?_, h.sees, ?_⟩
  · exact ⟨v, hv, Function.update_self .., by omega⟩
  · intro g
    have hk : (w.setWin k ⟨shift v.p off, len⟩).win k = some ⟨shift v.p off, len⟩ := Function.update_self ..
    refine ⟨(w.setWin k ⟨shift v.p off, len⟩).setWin g ⟨shift v.p off, len⟩, by simp only [winCopy, withWin, hk], ?_, h.sees⟩
    exact ⟨v, hv, Function.update_self .., by omega⟩

/-- A window shows the blocks of its vector. -/
theorem C98_window_shows (vini : B) {w : World B} (hw : Reach vini w) {vals : Vals B} (hs : Sees w vals) {k x off len : Nat}
    (ha : Aims w k x off len) : ∃ l, vals x = some l ∧ off + len ≤ l.length ∧ winSize w k = some len ∧
      ∀ i (h : i < len) (h' : off + i < l.length), winGet w k i = .ok l[off + i] := by
  have h := hw.rep_of hs
  obtain ⟨p, l, h1, h2, h3⟩ := ha.some h
  refine ⟨l, h2, h3, by simp [winSize, h1], ?_⟩
  intro i hi hi'
  obtain ⟨v, b, l', e1, e2, e3, e4, e5, e6⟩ := ha.block h (by omega)
  rw [h2] at e3; injection e3 with e3; subst e3
  simp only [winGet, e5]
  exact load_ok e4 hi'

/-- Writing through a window writes into its vector, and nowhere else. -/
theorem C98_window_put (vini : B) {w : World B} (hw : Reach vini w) {vals : Vals B} (hs : Sees w vals) {k x off len : Nat}
    (ha : Aims w k x off len) (i : Nat) (hi : i < len) (b : B) :
    ∃ w', winPut k i b w = .ok () w' ∧ w'.win = w.win ∧
      Sees w' (Function.update vals x ((vals x).map fun l => l.set (off + i) b)) := by
  have h := hw.rep_of hs
  obtain ⟨v, c, l, e1, e2, e3, e4, e5, e6⟩ := ha.block h (by omega)
  refine ⟨{ w with mem := w.mem.set c (some (l.set (off + i) b)) }, ?_, rfl, ?_⟩
  · simp only [winPut, withWin, e5, onMem, store_ok e4 (show off + i < l.length by omega) b]
  · rw [e3]
    exact (Rep.sees (w := { w with mem := _ }) (h.content e1 e2 e3 (by simp)))

/-- The list `l` with the entries from `off` on replaced by the list `xs`. -/
def overwrite (l : List B) (off : Nat) (xs : List B) : List B := l.take off ++ xs ++ l.drop (off + xs.length)

/-- Assigning a scalar to a window changes the blocks it shows. -/
theorem C98_window_fill (vini : B) {w : World B} (hw : Reach vini w) {vals : Vals B} (hs : Sees w vals) {k x off len : Nat}
    (ha : Aims w k x off len) (b : B) :
    ∃ w', winFill k b w = .ok () w' ∧ w'.win = w.win ∧
      Sees w' (Function.update vals x ((vals x).map fun l => overwrite l off (List.replicate len b))) := by
  have h := hw.rep_of hs
  obtain ⟨p, l, h1, h2, h3⟩ := ha.some h
  rcases Nat.eq_zero_or_pos len with h0 | h0
  · subst h0
    refine ⟨w, by simp only [winFill, withWin, h1, onMem]; rfl, rfl, ?_⟩
    rw [h2]
    have : overwrite l off (List.replicate 0 b) = l := by simp [overwrite]
    rw [Option.map_some, this, ← h2, Function.update_eq_self]
    exact hs
  · obtain ⟨v, c, l', e1, e2, e3, e4, e5, e6⟩ := ha.block h h0
    rw [h2] at e3; injection e3 with e3; subst e3
    refine ⟨{ w with mem := w.mem.set c (some (overwrite l off (List.replicate len b))) }, ?_, rfl, ?_⟩
    · simp only [winFill, withWin, e5, onMem, fillBase_ok e4 h3 b]
      simp [overwrite]
    · rw [h2]
      refine Rep.sees (w := { w with mem := _ }) (h.content e1 e2 h2 ?_)
      simp [overwrite]
      omega

/-- Assigning a window to another one copies the blocks: afterwards the target shows what the source showed, in its own
vector, and nothing else changed. The two may overlap, as long as the target does not start inside the source. -/
theorem C98_window_assign (vini : B) {w : World B} (hw : Reach vini w) {vals : Vals B} (hs : Sees w vals)
    {k g x y off off' len len' : Nat} (ha : Aims w k x off len) (hb : Aims w g y off' len') (hlen : len ≤ len')
    (hov : x ≠ y ∨ off ≤ off' ∨ off' + len ≤ off) {ly : List B} (hly : vals y = some ly) :
    ∃ w', winAssign k g w = .ok () w' ∧ w'.win = w.win ∧
      Sees w' (Function.update vals x ((vals x).map fun l => overwrite l off ((ly.drop off').take len))) := by
  have h := hw.rep_of hs
  obtain ⟨p, l, h1, h2, h3⟩ := ha.some h
  obtain ⟨q, l2, g1, g2, g3⟩ := hb.some h
  rw [hly] at g2; injection g2 with g2; subst g2
  rcases Nat.eq_zero_or_pos len with h0 | h0
  · subst h0
    refine ⟨w, ?_, rfl, ?_⟩
    · simp only [winAssign, withWin, h1, g1]
      split <;> rfl
    · rw [h2]
      have : overwrite l off ((ly.drop off').take 0) = l := by simp [overwrite]
      rw [Option.map_some, this, ← h2, Function.update_eq_self]
      exact hs
  · obtain ⟨v, c, l', e1, e2, e3, e4, e5, e6⟩ := ha.block h h0
    rw [h2] at e3; injection e3 with e3; subst e3
    obtain ⟨u, d, l3, f1, f2, f3, f4, f5, f6⟩ := hb.block h (by omega)
    rw [hly] at f3; injection f3 with f3; subst f3
    have hlen2 : ((ly.drop off').take len).length = len := by simp; omega
    by_cases hgk : g = k
    · subst hgk
      rw [e5] at f5
      injection f5 with f5
      injection f5 with f5 f6'
      injection f5 with f5
      injection f5 with f5 f7
      subst f5; subst f7
      have hxy : x = y := h.inj x y v u c e1 f1 e2 f2
      subst hxy
      rw [hly] at h2; injection h2 with h2; subst h2
      refine ⟨w, ?_, rfl, ?_⟩
      · simp only [winAssign, withWin, h1]
        simp
      · rw [hly]
        have : overwrite ly off ((ly.drop off).take len) = ly := by
          unfold overwrite
          rw [hlen2, ← List.drop_drop, List.append_assoc, List.take_append_drop, List.take_append_drop]
        rw [Option.map_some, this, ← hly, Function.update_eq_self]
        exact hs
    · refine ⟨{ w with mem := w.mem.set c (some (overwrite l off ((ly.drop off').take len))) }, ?_, rfl, ?_⟩
      · have hcd : c ≠ d ∨ off ≤ off' ∨ off' + len ≤ off := by
          rcases hov with hne | hov
          · left; intro e; subst e; exact hne (h.inj x y v u c e1 f1 e2 f2)
          · exact Or.inr hov
        simp only [winAssign, withWin, e5, f5, onMem, if_pos (show g ≠ k from hgk),
          copyLoop_ok e4 f4 h3 (show off' + len ≤ ly.length by omega) hcd]
        unfold overwrite
        rw [hlen2]
      · rw [h2]
        refine Rep.sees (w := { w with mem := _ }) (h.content e1 e2 h2 ?_)
        unfold overwrite
        simp only [List.length_append, hlen2, List.length_take, List.length_drop]
        omega

/-- The conversion of a window makes a new, independent vector of the blocks it shows, or changes nothing. -/
theorem C98_window_vector (vini : B) {w : World B} (hw : Reach vini w) {vals : Vals B} (hs : Sees w vals)
    {k y off len : Nat} (ha : Aims w k y off len) {ly : List B} (hly : vals y = some ly) (lk : Luck) (x : Nat)
    (hx : vals x = none) :
    (∃ w', winVector vini lk x k w = .ok () w' ∧ Sees w' (Function.update vals x (some ((ly.drop off).take len)))) ∨
    (∃ e w', winVector vini lk x k w = .throw e w' ∧ Sees w' vals) := by
  have h := hw.rep_of hs
  have hxy : x ≠ y := by intro e; subst e; rw [hx] at hly; cases hly
  obtain ⟨p, l, h1, h2, h3⟩ := ha.some h
  rw [hly] at h2; injection h2 with h2; subst h2
  have hr := run_ctorSize vini w vals lk lk h x len
  simp only [Call.run] at hr
  simp only [winVector, withWin, h1, Cmd.bind]
  cases hc : ctorSize vini lk x len w with
  | ub => rw [hc] at hr; exact absurd hx hr
  | throw e w1 =>
    rw [hc] at hr
    obtain ⟨⟨vals', hf, h5⟩, _⟩ := hr
    right
    refine ⟨e, w1, rfl, ?_⟩
    have : vals' = vals := hf
    rw [this] at h5; exact h5.sees
  | ok a w1 =>
    rw [hc] at hr
    obtain ⟨h5, h6, h7⟩ := hr
    replace h5 : Rep w1.mem w1.vec (Function.update vals x (some (List.replicate len vini))) := h5
    left
    obtain ⟨v, hv, hsy, hh⟩ := h5.live (x := x) (Function.update_self ..)
    have hyv : ∃ u', w1.vec y = some u' ∧ Aims w1 k y off len := by
      obtain ⟨u, hu, hwk, hn⟩ := ha
      obtain ⟨u', g1, g2, g3⟩ := h7 y u (off + len) hu hn True.intro
      exact ⟨u', g1, u', g1, by rw [h6, hwk, g2], g3⟩
    obtain ⟨u', hu', ha'⟩ := hyv
    simp only [withVec, hv]
    rcases Nat.eq_zero_or_pos len with h0 | h0
    · subst h0
      refine ⟨w1, rfl, ?_⟩
      simpa using h5.sees
    · obtain ⟨t, d, l3, f1, f2, f3, f4, f5, f6⟩ := ha'.block h5 h0
      rw [Function.update_of_ne (fun e => hxy e.symm), hly] at f3; injection f3 with f3; subst f3
      rw [h6, h1] at f5
      injection f5 with f5
      injection f5 with f5
      cases hb : v.st.blk with
      | none =>
        have := congrArg List.length (hh.nil hb).1
        simp at this
        omega
      | some b =>
        have hp : v.p = some ⟨b, 0⟩ := by rw [hsy]; simp [sync, Stor.data, hb]
        have hbd : b ≠ d := by
          intro e; subst e; exact hxy (h5.inj x y v t b hv f1 hb f2)
        refine ⟨{ w1 with mem := w1.mem.set b (some ((ly.drop off).take len)) }, ?_, ?_⟩
        · rw [hp, f5]
          simp only [onMem, copyLoop_ok (off := 0) (n := len) (hh.get hb) f4 (by simp) f6 (Or.inl hbd)]
          simp
        · have := h5.content hv hb (Function.update_self ..) (l' := (ly.drop off).take len) (by simp; omega)
          rw [Function.update_idem] at this
          exact Rep.sees (w := { w1 with mem := _ }) this

/-- A window stays a view of the same blocks during every call that keeps them in place (`Call.Keeps`: other vectors are
named, or the call stays within the capacity and keeps the blocks), also if the call throws; after a move or a swap it is
a view of the vector that has got the storage. -/
theorem C98_window_stays (vini : B) {w : World B} (hw : Reach vini w) {vals : Vals B} (hs : Sees w vals)
    {k x off len cap : Nat} (ha : Aims w k x off len) (hcap : capacity w x = some cap) (lk lk' : Luck) (c : Call B)
    (hk : c.Keeps vals x cap (off + len)) (w' : World B)
    (hr : c.run vini lk lk' w = .ok () w' ∨ ∃ e, c.run vini lk lk' w = .throw e w') : Aims w' k (c.heir x) off len := by
  have h := run_outcome vini w vals lk lk' (hw.rep_of hs) c
  obtain ⟨v, hv, hwk, hn⟩ := ha
  have hc : v.st.cap = cap := by simpa [capacity, hv] using hcap
  subst hc
  rcases hr with hr | ⟨e, hr⟩
  · rw [hr] at h
    obtain ⟨v', h1, h2, h3⟩ := h.2.2 x v (off + len) hv hn hk
    exact ⟨v', h1, by rw [h.2.1, hwk, h2], h3⟩
  · rw [hr] at h
    obtain ⟨v', h1, h2, h3⟩ := h.2.2.1 x v (off + len) hv hn hk
    exact ⟨v', h1, by rw [h.2.1, hwk, h2], h3⟩

/-! ### The hypotheses are met -/

/-- A history: a list, a copy, a window on the first, a write through it, a swap, a failing `resize`. -/
def demo : Out (World Nat) Unit :=
  (do
    ctorList {} 0 [1, 2, 3]
    ctorCopy {} 1 0
    reserve {} 0 8
    winAt 0 0 1 2
    winPut 0 0 7
    resize 0 { alloc := false } 0 5
    swap 0 1
    winPut 0 1 9 : Cmd (World Nat) Unit) World.init

example : (match demo with
    | .ok _ w => (size w 0, size w 1, get w 1 1, get w 1 2, get w 0 1)
    | _ => (none, none, .ub, .ub, .ub)) = (some 3, some 5, .ok 7, .ok 9, .ok 2) := by
  decide +kernel

/-- A state with a vector and a window on it, as the theorems suppose it. -/
theorem demo_reach : ∃ w : World Nat, Reach 0 w ∧ Sees w (Function.update (fun _ => none) 0 (some [1, 2, 3])) ∧
    Aims w 5 0 1 2 := by
  have h0 : Sees (World.init : World Nat) (fun _ => none) := fun _ => rfl
  rcases C98_calls (0 : Nat) Reach.init h0 {} {} (.ctorList 0 [1, 2, 3]) rfl with ⟨w, h1, h2⟩ | ⟨e, w, vals, h1, _⟩
  · obtain ⟨w', h3, h4, h5, _⟩ := C98_window_made 0 (Reach.ok _ Reach.init h1) h2 (x := 0) (l := [1, 2, 3])
      (by simp [Call.after]) 5 1 2 (by decide)
    exact ⟨w', Reach.wok (lk := {}) (.on 5 0 1 2) (Reach.ok _ Reach.init h1) h3, h5, h4⟩
  · exact absurd h1 (by simp [Call.run, ctorList, construct, World.init, vAssign, elems, Mem.read, Stor.empty, replace, fresh,
      Luck.stop, release, Mem.free, Stor.data])

/-- An assignment that throws after two of three blocks. -/
example : (match (do
    ctorList {} 0 [1, 2, 3]
    ctorList {} 1 [4, 5, 6]
    assign { fails := some 2 } 0 1 : Cmd (World Nat) Unit) World.init with
    | .throw _ w => (size w 0, get w 0 0, get w 0 1, get w 0 2)
    | _ => (none, .ub, .ub, .ub)) = (some 3, .ok 4, .ok 5, .ok 3) := by
  decide +kernel

/-- The restriction of `C98_window_assign` is needed: a target that starts inside its source gets the first block repeated. -/
example : (match (do
    ctorList {} 0 [1, 2, 3]
    winAt 0 0 1 2
    winAt 1 0 0 2
    winAssign 0 1 : Cmd (World Nat) Unit) World.init with
    | .ok _ w => (get w 0 0, get w 0 1, get w 0 2)
    | _ => (.ub, .ub, .ub)) = (.ok 1, .ok 1, .ok 1) := by
  decide +kernel

/-- A window into storage that was given up is not usable: after a reallocation its use is undefined. -/
example : (match (do
    ctorList {} 0 [1, 2, 3]
    winAt 0 0 1 2
    resize 0 {} 0 4 : Cmd (World Nat) Unit) World.init with
    | .ok _ w => winGet w 0 0
    | _ => .ok 0) = .ub := by
  decide +kernel

end Istl.BVec
