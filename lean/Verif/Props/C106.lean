import Verif.Model.VbIter

/-!
# C106: loops with iterators over the blocks of a `VariableBlockVector`

The body of the loop is arbitrary: it gets `it.index()` and the window `*it`, may change the state (memory included), throw or be undefined.
`v.block` lists the windows `v[0]`, `v[1]`, …
-/

namespace Istl
namespace VbV
open Iter (Dir)
variable {τ : Type}

/-- Run the body for pairs (window, index) one after the other. -/
def visitAll (body : Nat → Win → τ → Res τ) : List (Win × Nat) → τ → Res τ
  | [], x => .ok x
  | p :: ps, x => do
    let y ← body p.2 p.1 x
    visitAll body ps y

theorem blockLoop_cons {W : Nat} {o : Obj} {d : Dir} {body : Nat → Win → τ → Res τ} {stop it : It} (h : it.equals stop = false) {w : Win}
    (hw : it.deref o = .ok w) {ps : List (Win × Nat)}
    (ih : ∀ x r, BlockLoop W o d body stop (itStep W d it) x r ↔ r = visitAll body ps x) (x : τ) (r : Res τ) :
    BlockLoop W o d body stop it x r ↔ r = visitAll body ((w, it.idx) :: ps) x := by
  have hb : itBody o body it x = body it.idx w x := by simp only [itBody, hw]; rfl
  constructor
  · intro hl
    cases hl with
    | done h1 => rw [h] at h1; exact absurd h1 (by simp)
    | next h1 h2 h3 =>
      rw [hb] at h2
      have := (ih _ _).1 h3
      simp only [visitAll, h2]
      exact this
    | left h1 h2 h3 =>
      rw [hb] at h2
      simp only [visitAll, h2]
      cases r with
      | ok y => exact absurd rfl (h3 y)
      | throw e => rfl
      | ub => rfl
  · rintro rfl
    cases hx : body it.idx w x with
    | ok y =>
      refine .next h (hb.trans hx) ?_
      rw [ih]
      simp only [visitAll, hx]
      rfl
    | throw e =>
      refine .left h ?_ (by simp [visitAll, hx, bind, Res.bind])
      rw [hb, hx]; simp [visitAll, hx, bind, Res.bind]
    | ub =>
      refine .left h ?_ (by simp [visitAll, hx, bind, Res.bind])
      rw [hb, hx]; simp [visitAll, hx, bind, Res.bind]

theorem blockLoop_nil {W : Nat} {o : Obj} {d : Dir} {body : Nat → Win → τ → Res τ} {stop it : It} (h : it.equals stop = true) (x : τ)
    (r : Res τ) : BlockLoop W o d body stop it x r ↔ r = visitAll body [] x := by
  constructor
  · intro hl
    cases hl with
    | done => rfl
    | next h1 => rw [h] at h1; exact absurd h1 (by simp)
    | left h1 => rw [h] at h1; exact absurd h1 (by simp)
  · rintro rfl
    exact .done h

theorem deref_at {o : Obj} {k : Nat} {w : Win} (h : o.block[k]? = some w) (i : Nat) : It.deref o ⟨(k : Int), i⟩ = .ok w := by
  simp [It.deref, rd, h]

theorem up_from {W : Nat} {o : Obj} (hW : o.block.length < W) (body : Nat → Win → τ → Res τ) (ws : List Win) :
    ∀ k, o.block.drop k = ws → k ≤ o.block.length → ∀ x r,
      BlockLoop W o .up body (itEnd o) ⟨(k : Int), k⟩ x r ↔ r = visitAll body (ws.zipIdx k) x := by
  induction ws with
  | nil =>
    intro k hk hl x r
    have : k = o.block.length := by
      have := congrArg List.length hk
      simp at this; omega
    exact blockLoop_nil (by simp [It.equals, itEnd, this]) x r
  | cons w ws ih =>
    intro k hk hl x r
    have hlt : k < o.block.length := by
      have := congrArg List.length hk
      simp at this; omega
    have hg : o.block[k]? = some w := by
      have := congrArg (fun l => l[0]?) hk
      simpa using this
    have hd : o.block.drop (k + 1) = ws := by
      have := congrArg List.tail hk
      simpa using this
    rw [List.zipIdx_cons]
    refine blockLoop_cons (it := ⟨(k : Int), k⟩) (by simp [It.equals, itEnd]; omega) (deref_at hg k) ?_ x r
    intro x r
    have he : itStep W .up ⟨(k : Int), k⟩ = ⟨((k + 1 : Nat) : Int), k + 1⟩ := by
      simp [itStep, It.inc, Nat.mod_eq_of_lt (show k + 1 < W by omega)]
    rw [he]
    exact ih (k + 1) hd (by omega) x r

/-- `for (auto it = v.begin(); it != v.end(); ++it)`: it visits the windows `v[0]`, `v[1]`, … once each with their numbers as `index()`, and
ends with the result of the bodies. -/
theorem C106_forward {W : Nat} {o : Obj} (hW : o.block.length < W) (body : Nat → Win → τ → Res τ) (x : τ) (r : Res τ) :
    BlockLoop W o .up body (itStop o .up) (itStart o .up) x r ↔ r = visitAll body o.block.zipIdx x :=
  up_from hW body o.block 0 rfl (Nat.zero_le _) x r

/-- The pairs (window, index) of a backward loop that starts `k` steps behind the last block. -/
def backPairs (W : Nat) (ws : List Win) (k : Nat) : List (Win × Nat) := (ws.zipIdx k).map fun p => (p.1, (W - p.2) % W)

theorem down_from {W : Nat} {o : Obj} (hW : o.block.length < W) (body : Nat → Win → τ → Res τ) (ws : List Win) :
    ∀ k, o.block.reverse.drop k = ws → k ≤ o.block.length → ∀ x r,
      BlockLoop W o .down body (itBeforeBegin o) ⟨(o.block.length : Int) - 1 - k, (W - k) % W⟩ x r ↔ r = visitAll body (backPairs W ws k) x := by
  induction ws with
  | nil =>
    intro k hk hl x r
    have : k = o.block.length := by
      have := congrArg List.length hk
      simp at this; omega
    exact blockLoop_nil (by simp [It.equals, itBeforeBegin, this]) x r
  | cons w ws ih =>
    intro k hk hl x r
    have hlt : k < o.block.length := by
      have := congrArg List.length hk
      simp at this; omega
    have hg : o.block[o.block.length - 1 - k]? = some w := by
      have := congrArg (fun l => l[0]?) hk
      simp only [List.getElem?_drop, Nat.add_zero, List.getElem?_cons_zero] at this
      rwa [List.getElem?_reverse hlt] at this
    have hd : o.block.reverse.drop (k + 1) = ws := by
      have := congrArg List.tail hk
      simpa using this
    have hp : (o.block.length : Int) - 1 - k = ((o.block.length - 1 - k : Nat) : Int) := by omega
    have hz : backPairs W (w :: ws) k = (w, (W - k) % W) :: backPairs W ws (k + 1) := by simp [backPairs, List.zipIdx_cons]
    rw [hz]
    refine blockLoop_cons (it := ⟨(o.block.length : Int) - 1 - k, (W - k) % W⟩) (by simp [It.equals, itBeforeBegin]; omega)
      (by rw [hp]; exact deref_at hg _) ?_ x r
    intro x r
    have hi : ((W - k) % W + (W - 1)) % W = (W - (k + 1)) % W := by
      rw [Nat.mod_add_mod, show W - k + (W - 1) = W - (k + 1) + W by omega, Nat.add_mod_right]
    have he : itStep W .down ⟨(o.block.length : Int) - 1 - k, (W - k) % W⟩ = ⟨(o.block.length : Int) - 1 - ((k + 1 : Nat) : Int), (W - (k + 1)) % W⟩ := by
      simp only [itStep, It.dec, hi, It.mk.injEq, and_true]
      omega
    rw [he]
    exact ih (k + 1) hd (by omega) x r

/-- `for (auto it = v.beforeEnd(); it != v.beforeBegin(); --it)`: it visits the windows once each from the last one to the first one, but the
`k`-th one visited, `v[n-1-k]`, has `index()` equal to `-k` modulo `W`. -/
theorem C106_backward {W : Nat} {o : Obj} (hW : o.block.length < W) (body : Nat → Win → τ → Res τ) (x : τ) (r : Res τ) :
    BlockLoop W o .down body (itStop o .down) (itStart o .down) x r ↔
      r = visitAll body (o.block.reverse.zipIdx.map fun p => (p.1, (W - p.2) % W)) x := by
  have := down_from hW body o.block.reverse 0 rfl (Nat.zero_le _) x r
  simpa [itStop, itStart, itBeforeEnd, backPairs] using this

/-- With two or more blocks a backward loop shows no block with its own number: `index()` of the `k`-th window visited is not `n-1-k`. -/
theorem C106_backward_index {W n k : Nat} (hn : 1 < n) (hW : n < W) (hk : k < n) : (W - k) % W ≠ n - 1 - k := by
  rcases Nat.eq_zero_or_pos k with rfl | h
  · simp; omega
  · rw [Nat.mod_eq_of_lt (by omega)]
    omega

/-- `v.find(i)`: an iterator to `v[i]` with index `i`; equal to `v.end()` if there is no block `i`. -/
theorem C106_find {W : Nat} {o : Obj} (hW : o.block.length < W) (i : Nat) :
    ((itFind W o i).equals (itEnd o) = true ↔ o.block.length ≤ i) ∧
      ∀ w, o.block[i]? = some w → (itFind W o i).deref o = .ok w ∧ (itFind W o i).idx = i := by
  constructor
  · simp only [itFind, itEnd, It.equals, beq_iff_eq, Int.natCast_inj]
    omega
  · intro w hw
    have hi : i < o.block.length := by
      rw [List.getElem?_eq_some_iff] at hw
      exact hw.1
    have e : min i o.block.length = i := Nat.min_eq_left (Nat.le_of_lt hi)
    refine ⟨?_, ?_⟩
    · simp only [itFind, e]
      exact deref_at hw _
    · simp only [itFind, e, Nat.zero_add]
      exact Nat.mod_eq_of_lt (by omega)

/-! Concrete cases: three blocks of sizes 2, 0, 3. -/

private def demoV : Obj := ⟨some ⟨0, 0⟩, 5, [⟨2, some ⟨0, 0⟩⟩, ⟨0, some ⟨0, 2⟩⟩, ⟨3, some ⟨0, 2⟩⟩], ⟨some 0, 5⟩, true⟩
private def collect (i : Nat) (w : Win) (s : List (Nat × Nat)) : Res (List (Nat × Nat)) := .ok (s ++ [(i, w.sz)])

example : ∀ r, BlockLoop (2 ^ 64) demoV .up collect (itEnd demoV) (itBegin demoV) [] r ↔ r = .ok [(0, 2), (1, 0), (2, 3)] :=
  C106_forward (o := demoV) (by decide) collect []
/-- Backwards the last block has index 0 and the one before it index `2^64-1`. -/
example : ∀ r, BlockLoop (2 ^ 64) demoV .down collect (itBeforeBegin demoV) (itBeforeEnd demoV) [] r ↔
    r = .ok [(0, 3), (2 ^ 64 - 1, 0), (2 ^ 64 - 2, 2)] :=
  C106_backward (o := demoV) (by decide) collect []
example : (itFind (2 ^ 64) demoV 2).idx = 2 ∧ (itFind (2 ^ 64) demoV 7).equals (itEnd demoV) = true :=
  ⟨((C106_find (W := 2 ^ 64) (o := demoV) (by decide) 2).2 _ rfl).2, (C106_find (W := 2 ^ 64) (o := demoV) (by decide) 7).1.2 (by decide)⟩
example : (2 ^ 64 - 1) % 2 ^ 64 ≠ 3 - 1 - 1 := C106_backward_index (W := 2 ^ 64) (n := 3) (k := 1) (by decide) (by decide) (by decide)

end VbV
end Istl
