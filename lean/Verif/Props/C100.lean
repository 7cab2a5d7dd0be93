import Verif.Lemmas.VecIter
import Verif.Props.C98

/-!
# C100: loops with iterators over `BlockVector` and `BlockVectorWindow`

`Pass W d a f w s r`: the loop `for (i = a.begin(); i != a.end(); ++i)` (or from `beforeEnd()` down to `beforeBegin()`) over the
vector or window `a`, whose body calls `f(i.index(), *i, s)` and may overwrite `*i`, has the outcome `r`.
-/

namespace Istl.BVec
open Istl.Iter (Dir)
variable {B τ : Type}

/-- In every reachable state, a loop over a vector or over a window on `[off, off+len)` of the vector `x`, in either direction,
ends without undefined behaviour and in exactly one way: that of the loop over the numbers `0, ..., len-1` (or back) on plain
lists. Only the value of the vector `x` changes, no object moves, and iterators into it would stay valid. -/
theorem C100_pass (vini : B) {w : World B} (hw : Reach vini w) {vals : Vals B} (hs : Sees w vals) {x off len : Nat} {a : Name}
    (ha : Covers w vals x off len a) {l : List B} (hl : vals x = some l) {W : Nat} (hW : len ≤ W) (d : Dir)
    (f : Nat → B → τ → Option B × τ) (s : τ) :
    ∃ w', Reach vini w' ∧ w'.vec = w.vec ∧ w'.win = w.win ∧
      Sees w' (Function.update vals x (some (sweep off f (d.order (List.range len)) (l, s)).1)) ∧
      ∀ r, Pass W d a f w s r ↔ r = .ok (w', (sweep off f (d.order (List.range len)) (l, s)).2) := by
  obtain ⟨p, l', hp, h2, -, -⟩ := covers_access hw hs ha
  obtain ⟨w', g1, g2, g3, g4, g5⟩ := passFrom hw hs ha hl hW d f hp (Nat.zero_le _) s
  simp only [List.drop_zero] at g4 g5
  refine ⟨w', g1, g2, g3, g4, fun r => ?_⟩
  have hst : itStart (p, len) d = ⟨p, ipos len d 0⟩ := by
    cases d
    · rfl
    · simp [itStart, itBeforeEnd, ipos]
  unfold Pass
  rw [hp]
  simp only [hst]
  exact g5 r

theorem sweep_read (off : Nat) (g : Nat → B → τ → τ) (is : List Nat) (l : List B) (s : τ) :
    sweep off (fun i b s => ((none : Option B), g i b s)) is (l, s) =
      (l, (is.filterMap fun i => (l[off + i]?).map fun b => (b, i)).foldl (fun s e => g e.2 e.1 s) s) := by
  induction is generalizing s with
  | nil => rfl
  | cons i is ih =>
    simp only [sweep]
    cases h : l[off + i]? with
    | none => simp only [List.filterMap_cons, h, Option.map_none]; exact ih s
    | some b => simp only [List.filterMap_cons, h, Option.map_some, List.foldl_cons]; exact ih _

theorem segment_zip (l : List B) (off : Nat) : ∀ (len : Nat), off + len ≤ l.length →
    ((List.range len).filterMap fun i => (l[off + i]?).map fun b => (b, i)) = ((l.drop off).take len).zipIdx
  | 0, _ => by simp
  | len + 1, h => by
    have hi : off + len < l.length := by omega
    have hd : len < (l.drop off).length := by simp; omega
    rw [List.range_succ, List.filterMap_append, segment_zip l off len (by omega), List.take_add_one,
      List.getElem?_eq_getElem hd, List.zipIdx_append]
    simp [hi]
    omega

/-- A loop that only reads folds over the blocks and changes no value. -/
theorem C100_read (vini : B) {w : World B} (hw : Reach vini w) {vals : Vals B} (hs : Sees w vals) {x off len : Nat} {a : Name}
    (ha : Covers w vals x off len a) {l : List B} (hl : vals x = some l) {W : Nat} (hW : len ≤ W) (d : Dir)
    (g : Nat → B → τ → τ) (s : τ) :
    ∃ w', Reach vini w' ∧ w'.vec = w.vec ∧ w'.win = w.win ∧ Sees w' vals ∧
      ∀ r, Pass W d a (fun i b s => ((none : Option B), g i b s)) w s r ↔
        r = .ok (w', (d.order ((l.drop off).take len).zipIdx).foldl (fun s e => g e.2 e.1 s) s) := by
  obtain ⟨p, l', hp, h2, h3, -⟩ := covers_access hw hs ha
  rw [hl] at h2; injection h2 with h2; subst h2
  obtain ⟨w', g1, g2, g3, g4, g5⟩ := C100_pass vini hw hs ha hl hW d (fun i b s => ((none : Option B), g i b s)) s
  rw [sweep_read] at g4 g5
  have hord : ((d.order (List.range len)).filterMap fun i => (l[off + i]?).map fun b => (b, i)) =
      d.order ((l.drop off).take len).zipIdx := by
    rw [← segment_zip l off len h3]
    cases d
    · rfl
    · simp only [Dir.order, List.filterMap_reverse]
  have hself : Function.update vals x (some l) = vals := by rw [← hl]; exact Function.update_eq_self ..
  rw [hself] at g4
  simp only [hord] at g5
  exact ⟨w', g1, g2, g3, g4, g5⟩

theorem sweep_write (off : Nat) (g : Nat → B → B) : ∀ (is : List Nat) (l : List B) (s : τ), is.Nodup →
    ∀ j, (sweep off (fun i b (s : τ) => (some (g i b), s)) is (l, s)).1[j]? =
      if off ≤ j ∧ j - off ∈ is then (l[j]?).map (g (j - off)) else l[j]?
  | [], l, s, _, j => by simp [sweep]
  | i :: is, l, s, hn, j => by
    rw [List.nodup_cons] at hn
    simp only [sweep]
    cases h : l[off + i]? with
    | none =>
      simp only
      rw [sweep_write off g is l s hn.2 j]
      by_cases hj : j = off + i
      · subst hj
        rw [h]; simp
      · have : (j - off ∈ i :: is ∧ off ≤ j) ↔ (j - off ∈ is ∧ off ≤ j) := by
          simp only [List.mem_cons]
          constructor
          · rintro ⟨h1 | h1, h2⟩
            · omega
            · exact ⟨h1, h2⟩
          · rintro ⟨h1, h2⟩
            exact ⟨.inr h1, h2⟩
        simp only [and_comm (a := off ≤ j), this]
    | some b =>
      simp only
      rw [sweep_write off g is _ s hn.2 j]
      by_cases hj : j = off + i
      · subst hj
        have e : off + i - off = i := by omega
        have hlt := (List.getElem?_eq_some_iff.mp h).1
        rw [e, if_neg (fun hh => hn.1 hh.2), if_pos ⟨by omega, by simp⟩, h]
        simp [hlt]
      · rw [List.getElem?_set_ne (fun e => hj e.symm)]
        have : (off ≤ j ∧ j - off ∈ i :: is) ↔ (off ≤ j ∧ j - off ∈ is) := by
          simp only [List.mem_cons]
          constructor
          · rintro ⟨h2, h1 | h1⟩
            · omega
            · exact ⟨h2, h1⟩
          · rintro ⟨h2, h1⟩
            exact ⟨h2, .inr h1⟩
        simp only [this]

/-- A loop that overwrites every `*i` by `g(i.index(), *i)`: afterwards the blocks of the segment have their new values, in
either direction; all other blocks and all other vectors are as before. -/
theorem C100_write (vini : B) {w : World B} (hw : Reach vini w) {vals : Vals B} (hs : Sees w vals) {x off len : Nat} {a : Name}
    (ha : Covers w vals x off len a) {l : List B} (hl : vals x = some l) {W : Nat} (hW : len ≤ W) (d : Dir) (g : Nat → B → B) :
    ∃ w', Reach vini w' ∧ w'.vec = w.vec ∧ w'.win = w.win ∧
      Sees w' (Function.update vals x (some (l.mapIdx fun j b => if off ≤ j ∧ j < off + len then g (j - off) b else b))) ∧
      ∀ r, Pass W d a (fun i b (u : Unit) => (some (g i b), u)) w () r ↔ r = .ok (w', ()) := by
  obtain ⟨w', g1, g2, g3, g4, g5⟩ := C100_pass vini hw hs ha hl hW d (fun i b (u : Unit) => (some (g i b), u)) ()
  refine ⟨w', g1, g2, g3, ?_, g5⟩
  have hnd : (d.order (List.range len)).Nodup := by
    cases d
    · exact List.nodup_range
    · exact List.nodup_reverse.mpr List.nodup_range
  have hmem : ∀ i, i ∈ d.order (List.range len) ↔ i < len := by
    intro i; cases d <;> simp [Dir.order]
  have : (sweep off (fun i b (u : Unit) => (some (g i b), u)) (d.order (List.range len)) (l, ())).1 =
      l.mapIdx fun j b => if off ≤ j ∧ j < off + len then g (j - off) b else b := by
    apply List.ext_getElem?
    intro j
    rw [sweep_write off g _ l () hnd j, List.getElem?_mapIdx]
    simp only [hmem]
    by_cases hj : off ≤ j ∧ j - off < len
    · rw [if_pos hj]
      have hj' : off ≤ j ∧ j < off + len := by omega
      simp only [hj', and_self, if_true]
    · rw [if_neg hj]
      have hj' : ¬ (off ≤ j ∧ j < off + len) := by omega
      simp only [hj', if_false]
      cases l[j]? <;> rfl
  rw [← this]
  exact g4

/-- `find(i)` is `end()` exactly if there is no block `i`; otherwise it points to block `i`, and a loop from there visits the blocks
from `i` on (upwards) or from `i` down (downwards). -/
theorem C100_find (vini : B) {w : World B} (hw : Reach vini w) {vals : Vals B} (hs : Sees w vals) {x off len : Nat} {a : Name}
    (ha : Covers w vals x off len a) {l : List B} (hl : vals x = some l) {W : Nat} (hW : len ≤ W) (i : Nat) :
    ∃ q, base w a = .ok q ∧ ((itFind q i).equals (itEnd q) = true ↔ len ≤ i) ∧
      (∀ (_ : i < len) (h : off + i < l.length), (itFind q i).index W = i ∧ (itFind q i).deref w.mem = .ok l[off + i] ∧
        (∀ (f : Nat → B → τ → Option B × τ) (s : τ), ∃ w', ∀ r, PassFrom W .up a f (itFind q i) (w, s) r ↔
          r = .ok (w', (sweep off f ((List.range len).drop i) (l, s)).2)) ∧
        (∀ (f : Nat → B → τ → Option B × τ) (s : τ), ∃ w', ∀ r, PassFrom W .down a f (itFind q i) (w, s) r ↔
          r = .ok (w', (sweep off f (List.range (i + 1)).reverse (l, s)).2))) := by
  obtain ⟨p, l', hp, h2, h3, h4⟩ := covers_access hw hs ha
  rw [hl] at h2; injection h2 with h2; subst h2
  refine ⟨(p, len), hp, ?_, fun hi h => ?_⟩
  · simp only [itFind, itEnd, equals_same, decide_eq_true_eq]
    omega
  · have hf : itFind (p, len) i = ⟨p, (i : Nat)⟩ := by simp [itFind, Nat.min_eq_left (Nat.le_of_lt hi)]
    rw [hf]
    refine ⟨?_, (h4 i hi h).1, fun f s => ?_, fun f s => ?_⟩
    · simp only [It.index]
      rw [Int.emod_eq_of_lt (by omega) (by omega), Int.toNat_natCast]
    · obtain ⟨w', -, -, -, -, g5⟩ := passFrom hw hs ha hl hW .up f hp (k0 := i) (by omega) s
      exact ⟨w', g5⟩
    · obtain ⟨w', -, -, -, -, g5⟩ := passFrom hw hs ha hl hW .down f hp (k0 := len - 1 - i) (by omega) s
      have e1 : ipos len .down (len - 1 - i) = (i : Nat) := by simp only [ipos]; omega
      have e2 : (Dir.down.order (List.range len)).drop (len - 1 - i) = (List.range (i + 1)).reverse := by
        simp only [Dir.order]
        rw [List.drop_reverse, List.length_range, List.take_range]
        congr 2
        omega
      rw [e1, e2] at g5
      exact ⟨w', g5⟩

/-- The arithmetic of the iterators of one object: `end - begin` is the size, `beforeEnd` and `beforeBegin` are one before `end` and
`begin`; moving and measuring agree, `==` means equal position, and `i[k]` is `*(i+k)`. Block `k` of the object is
`begin()[k]`. -/
theorem C100_positions (vini : B) {w : World B} (hw : Reach vini w) {vals : Vals B} (hs : Sees w vals) {x off len : Nat}
    {a : Name} (ha : Covers w vals x off len a) {l : List B} (hl : vals x = some l) :
    ∃ q, base w a = .ok q ∧ (itBegin q).distanceTo (itEnd q) = len ∧ itBeforeEnd q = (itEnd q).decrement ∧
      itBeforeBegin q = (itBegin q).decrement ∧ itEnd q = (itBegin q).advance len ∧
      (∀ (k : Nat) (_ : k < len) (h : off + k < l.length), (itBegin q).elementAt w.mem k = .ok l[off + k]) ∧
      ∀ (it : It), it.increment = it.advance 1 ∧ it.decrement = it.advance (-1) ∧
        ∀ k m : Int, (it.advance k).advance m = it.advance (k + m) ∧ (it.advance k).distanceTo (it.advance m) = m - k ∧
          ((it.advance k).equals (it.advance m) = true ↔ k = m) ∧ it.elementAt w.mem k = (it.advance k).deref w.mem := by
  obtain ⟨p, l', hp, h2, h3, h4⟩ := covers_access hw hs ha
  rw [hl] at h2; injection h2 with h2; subst h2
  refine ⟨(p, len), hp, ?_, rfl, rfl, by simp [itEnd, itBegin, It.advance], fun k hk h => ?_, fun it => ?_⟩
  · simp only [itBegin, itEnd, It.distanceTo, It.addr]
    cases p <;> simp
  · have := (h4 k hk h).1
    simpa [It.elementAt, itBegin] using this
  · refine ⟨rfl, rfl, fun k m => ⟨?_, ?_, ?_, rfl⟩⟩
    · simp only [It.advance, It.mk.injEq, true_and]; omega
    · simp only [It.distanceTo, It.addr, It.advance]
      cases it.p <;> simp <;> omega
    · simp only [It.advance, equals_same, decide_eq_true_eq]
      omega

/-! ### Non-vacuity -/

/-- A vector of three blocks and a window on the last two; the loop down over the window collects what it sees. -/
example : ∃ (w w' : World Nat), Reach 0 w ∧ Covers w (Function.update (fun _ => none) 0 (some [1, 2, 3])) 0 1 2 (.win 5) ∧
    ∀ r, Pass 2 .down (.win 5) (fun i b s => ((none : Option Nat), s ++ [(i, b)])) w [] r ↔ r = .ok (w', [(1, 3), (0, 2)]) := by
  obtain ⟨w, h1, h2, h3⟩ := demo_reach
  obtain ⟨w', -, -, -, -, h⟩ := C100_read 0 h1 h2 (a := .win 5) h3 (l := [1, 2, 3]) (by simp) (W := 2) le_rfl .down
    (fun i b s => s ++ [(i, b)]) []
  exact ⟨w, w', h1, h3, h⟩

/-- Adding ten to every block seen through the window leaves the first block of the vector alone. -/
example : ∃ (w w' : World Nat), Reach 0 w ∧
    Sees w' (Function.update (Function.update (fun _ => none) 0 (some [1, 2, 3])) 0 (some [1, 12, 13])) ∧
    ∀ r, Pass 2 .up (.win 5) (fun _ b (u : Unit) => (some (b + 10), u)) w () r ↔ r = .ok (w', ()) := by
  obtain ⟨w, h1, h2, h3⟩ := demo_reach
  obtain ⟨w', -, -, -, h, h'⟩ := C100_write 0 h1 h2 (a := .win 5) h3 (l := [1, 2, 3]) (by simp) (W := 2) le_rfl .up
    (fun _ b => b + 10)
  exact ⟨w, w', h1, h, h'⟩

/-- A vector by its own name. -/
example : ∃ (w : World Nat), Reach 0 w ∧ Covers w (Function.update (fun _ => none) 0 (some [1, 2, 3])) 0 0 3 (.vec 0) := by
  obtain ⟨w, h1, -, -⟩ := demo_reach
  exact ⟨w, h1, rfl, rfl, [1, 2, 3], by simp, rfl⟩

end Istl.BVec
