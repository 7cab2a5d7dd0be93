import Verif.Lemmas.BcrsWorld

/-! # C08 — copies of a built matrix are independent values -/

namespace Istl
namespace BcrsWorld
open Bcrs
variable {B : Type}

theorem inv_start (h : Heap B) (z : B) (hd : h.dflt = z) (hv : h.vini = z) : Inv z ⟨h, []⟩ [] := by
  refine ⟨hd, hv, rfl, ?_, ?_, ?_, ?_⟩ <;> intros <;> simp_all

theorem Inv.see {z : B} {w : World B} {s : State B} (I : Inv z w s) {i : Nat} {v : Val B} (hv : s.get i = some v) :
    see w i = .ok (v.n, v.m, v.rows) := by
  rw [get_iff] at hv
  obtain ⟨o, ho, R⟩ := I.rep i v hv
  simp [BcrsWorld.see, obj_ok ho, R.view]

/-- For every program over any number of matrices (built in any mode, copied, assigned to each other, changed, destroyed, in
any order), every statement succeeds without undefined behaviour, and what is seen through each matrix is the value it has
when matrices are plain independent values. -/
theorem C08_programs_compute_values (h : Heap B) (z : B) (hd : h.dflt = z) (hv : h.vini = z) (ops : List (Op B))
    (hok : AllValid z [] ops) :
    ∃ w, ops.foldlM step ⟨h, []⟩ = .ok w ∧ ∀ i v, (run z [] ops).get i = some v → see w i = .ok (v.n, v.m, v.rows) := by
  obtain ⟨w, e, I⟩ := run_inv ops (inv_start h z hd hv) hok
  exact ⟨w, e, fun i v hi => I.see hi⟩

theorem allValid_append (z : B) (s : State B) (l1 l2 : List (Op B)) : AllValid z s (l1 ++ l2) ↔
    AllValid z s l1 ∧ AllValid z (run z s l1) l2 := by
  induction l1 generalizing s with
  | nil => simp [AllValid, run]
  | cons op l1 ih => simp only [List.cons_append, AllValid, ih, run, List.foldl_cons]; tauto

theorem run_append (z : B) (s : State B) (l1 l2 : List (Op B)) : run z s (l1 ++ l2) = run z (run z s l1) l2 := by
  simp [run, List.foldl_append]

/-- The variable a statement changes. -/
def target : Op B → Option Nat
  | .assign i _ => some i
  | .modify i _ _ _ => some i
  | .scale i _ => some i
  | .fill i _ => some i
  | .destroy i => some i
  | _ => none

theorem get_append {s : State B} {k : Nat} {v : Val B} (h : s.get k = some v) (x : Option (Val B)) : State.get (s ++ [x]) k = some v := by
  rw [get_iff] at h ⊢
  rw [List.getElem?_append_left (List.getElem?_eq_some_iff.mp h).1, h]

theorem get_upd_ne {s : State B} {k i : Nat} (hne : i ≠ k) (f : Val B → Val B) : State.get (s.upd i f) k = s.get k := by
  simp only [State.get, State.upd, List.getElem?_modify, if_neg hne]
  simp

theorem get_upd_self {s : State B} {k : Nat} {v : Val B} (h : s.get k = some v) (f : Val B → Val B) :
    State.get (s.upd k f) k = some (f v) := by
  rw [get_iff] at h ⊢
  simp [State.upd, List.getElem?_modify, h]

theorem apply_other (z : B) (s : State B) (op : Op B) (hv : Valid s op) {k : Nat} {v : Val B} (hk : s.get k = some v)
    (ht : target op ≠ some k) : ∃ v', (BcrsWorld.apply z s op).get k = some v' ∧ v'.n = v.n ∧ v'.m = v.m ∧ v'.rows = v.rows := by
  have upd : ∀ (i : Nat) (f : Val B → Val B), i ≠ k → State.get (s.upd i f) k = some v := by
    intro i f hne; rw [get_upd_ne hne, hk]
  cases op with
  | new mode => exact ⟨v, get_append hk _, rfl, rfl, rfl⟩
  | random n m nnz sizes calls => exact ⟨v, get_append hk _, rfl, rfl, rfl⟩
  | rowWise n m nnz bm todo => exact ⟨v, get_append hk _, rfl, rfl, rfl⟩
  | implicit n m avg cbs acc => exact ⟨v, get_append hk _, rfl, rfl, rfl⟩
  | copy j =>
    by_cases hj : j = k
    · subst hj
      exact ⟨_, get_append (get_upd_self hk _) _, rfl, rfl, rfl⟩
    · exact ⟨v, get_append (upd j _ hj) _, rfl, rfl, rfl⟩
  | assign i j =>
    simp only [target, ne_eq, Option.some.injEq] at ht
    simp only [BcrsWorld.apply]
    split
    · exact ⟨v, hk, rfl, rfl, rfl⟩
    · split
      · rw [get_upd_ne ht]
        by_cases hj : j = k
        · subst hj
          exact ⟨_, get_upd_self hk _, rfl, rfl, rfl⟩
        · exact ⟨v, upd j _ hj, rfl, rfl, rfl⟩
      · exact ⟨v, hk, rfl, rfl, rfl⟩
  | modify i r c f => exact ⟨v, upd i _ (by simpa [target] using ht), rfl, rfl, rfl⟩
  | scale i f => exact ⟨v, upd i _ (by simpa [target] using ht), rfl, rfl, rfl⟩
  | fill i f => exact ⟨v, upd i _ (by simpa [target] using ht), rfl, rfl, rfl⟩
  | count i =>
    by_cases hi : i = k
    · subst hi; exact ⟨_, get_upd_self hk _, rfl, rfl, rfl⟩
    · exact ⟨v, upd i _ hi, rfl, rfl, rfl⟩
  | destroy i =>
    refine ⟨v, ?_, rfl, rfl, rfl⟩
    rw [get_iff] at hk ⊢
    simp only [BcrsWorld.apply]
    rw [List.getElem?_set_ne (by simpa [target] using ht), hk]

theorem run_other (z : B) (ops : List (Op B)) : ∀ (s : State B), AllValid z s ops → ∀ {k : Nat} {v : Val B}, s.get k = some v →
    (∀ op ∈ ops, target op ≠ some k) → ∃ v', (run z s ops).get k = some v' ∧ v'.n = v.n ∧ v'.m = v.m ∧ v'.rows = v.rows := by
  induction ops with
  | nil => intro s _ k v hk _; exact ⟨v, hk, rfl, rfl, rfl⟩
  | cons op ops ih =>
    intro s hv k v hk ht
    obtain ⟨v1, h1, a1, a2, a3⟩ := apply_other z s op hv.1 hk (ht op (by simp))
    obtain ⟨v2, h2, b1, b2, b3⟩ := ih _ hv.2 h1 fun op hop => ht op (by simp [hop])
    exact ⟨v2, h2, by rw [b1, a1], by rw [b2, a2], by rw [b3, a3]⟩

/-- Whatever is done to the other matrices - copying from this one, assigning from it, changing or destroying copies or
originals it shares its index array with - the pattern and the values seen through matrix `k` stay the same. -/
theorem C08_other_matrices_unaffected (h : Heap B) (z : B) (hd : h.dflt = z) (hv : h.vini = z) (before after : List (Op B))
    (hok : AllValid z [] (before ++ after)) (k : Nat) (hk : ∃ v, (run z [] before).get k = some v)
    (ht : ∀ op ∈ after, target op ≠ some k) :
    ∃ w1 w2 seen, before.foldlM step ⟨h, []⟩ = .ok w1 ∧ after.foldlM step w1 = .ok w2 ∧ see w1 k = .ok seen ∧
      see w2 k = .ok seen := by
  rw [allValid_append] at hok
  obtain ⟨w1, e1, I1⟩ := run_inv before (inv_start h z hd hv) hok.1
  obtain ⟨w2, e2, I2⟩ := run_inv after I1 hok.2
  obtain ⟨v, hk⟩ := hk
  obtain ⟨v', hk', a1, a2, a3⟩ := run_other z after _ hok.2 hk ht
  refine ⟨w1, w2, (v.n, v.m, v.rows), e1, e2, I1.see hk, ?_⟩
  rw [I2.see hk', a1, a2, a3]

/-- A copy has the pattern and the values of its source. -/
theorem C08_copy_equal (h : Heap B) (z : B) (hd : h.dflt = z) (hv : h.vini = z) (before : List (Op B)) (hok : AllValid z [] before)
    (j : Nat) (hj : ∃ v, (run z [] before).get j = some v) :
    ∃ w1 w2 seen, before.foldlM step ⟨h, []⟩ = .ok w1 ∧ step w1 (.copy j) = .ok w2 ∧ see w1 j = .ok seen ∧ see w2 j = .ok seen ∧
      see w2 w1.objs.length = .ok seen := by
  obtain ⟨w1, e1, I1⟩ := run_inv before (inv_start h z hd hv) hok
  obtain ⟨v, hj⟩ := hj
  obtain ⟨w2, e2, I2⟩ := step_inv I1 (.copy j) ⟨v, hj⟩
  refine ⟨w1, w2, (v.n, v.m, v.rows), e1, e2, I1.see hj, ?_, ?_⟩
  · obtain ⟨v', hk', a1, a2, a3⟩ := apply_other z _ (.copy j) ⟨v, hj⟩ hj (by simp [target])
    rw [I2.see hk', a1, a2, a3]
  · have : (BcrsWorld.apply z (run z [] before) (.copy j)).get w1.objs.length = some { v with lazy := false, counted := true } := by
      rw [get_iff]
      simp only [BcrsWorld.apply, hj, Option.map_some]
      have hl : w1.objs.length = ((run z [] before).upd j fun v => { v with counted := true }).length := by
        simp [State.upd, I1.len]
      rw [hl]
      simp
    rw [I2.see this]

/-- An assigned matrix has the pattern and the values of the right-hand side, whatever it was before. -/
theorem C08_assign_equal (h : Heap B) (z : B) (hd : h.dflt = z) (hv : h.vini = z) (before : List (Op B)) (hok : AllValid z [] before)
    (i j : Nat) (hi : ∃ v, (run z [] before).get i = some v) (hj : ∃ v, (run z [] before).get j = some v) :
    ∃ w1 w2 seen, before.foldlM step ⟨h, []⟩ = .ok w1 ∧ step w1 (.assign i j) = .ok w2 ∧ see w1 j = .ok seen ∧ see w2 j = .ok seen ∧
      see w2 i = .ok seen := by
  obtain ⟨w1, e1, I1⟩ := run_inv before (inv_start h z hd hv) hok
  obtain ⟨u, hi⟩ := hi
  obtain ⟨v, hj⟩ := hj
  obtain ⟨w2, e2, I2⟩ := step_inv I1 (.assign i j) ⟨⟨u, hi⟩, v, hj⟩
  refine ⟨w1, w2, (v.n, v.m, v.rows), e1, e2, I1.see hj, ?_, ?_⟩
  · by_cases hij : i = j
    · have : (BcrsWorld.apply z (run z [] before) (.assign i j)).get j = some v := by simp [BcrsWorld.apply, hij, hj]
      rw [I2.see this]
    · obtain ⟨v', hk', a1, a2, a3⟩ := apply_other z _ (.assign i j) ⟨⟨u, hi⟩, v, hj⟩ hj (by simpa [target] using hij)
      rw [I2.see hk', a1, a2, a3]
  · by_cases hij : i = j
    · have : (BcrsWorld.apply z (run z [] before) (.assign i j)).get i = some v := by simp [BcrsWorld.apply, hij, hj]
      rw [I2.see this]
    · have : (BcrsWorld.apply z (run z [] before) (.assign i j)).get i = some { v with lazy := false, counted := true } := by
        simp only [BcrsWorld.apply, if_neg hij, hj]
        rw [get_upd_self (v := u) (by rw [get_upd_ne (Ne.symm hij)]; exact hi)]
      rw [I2.see this]

/-! ### Non-vacuity and limits -/

private def demoHeap : Heap Int := { js := [], as := [], junk := 9, dflt := 0, vini := 0 }

/-- A program with all kinds of statements: two matrices built in different modes, a copy, changes to copy and original, an
assignment, destruction of the original. -/
private def demo : List (Op Int) :=
  [.rowWise 2 3 3 .rowWise [[1, 0], [2]], .implicit 2 3 1 0 [⟨0, 2, fun _ => 5⟩, ⟨1, 0, fun _ => 6⟩], .copy 0, .fill 0 7,
    .modify 2 1 2 (fun _ => 4), .scale 0 (· * 2), .assign 1 2, .new .unknown, .assign 3 0, .destroy 0]

set_option synthInstance.maxSize 1000 in
example : (match demo.foldlM step ⟨demoHeap, []⟩ with
    | .ok w => [see w 1, see w 2, see w 3]
    | _ => []) =
    [.ok (2, 3, [[(0, 0), (1, 0)], [(2, 4)]]), .ok (2, 3, [[(0, 0), (1, 0)], [(2, 4)]]),
      .ok (2, 3, [[(0, 14), (1, 14)], [(2, 14)]])] := by decide +kernel

/-- The statements of a program of this kind are allowed. -/
example : AllValid (0 : Int) [] [.rowWise 2 3 3 .rowWise [[1, 0], [2]], .copy 0, .fill 0 7, .scale 1 (· * 2), .new .unknown,
    .assign 2 1, .destroy 0] := by
  refine ⟨⟨.inl rfl, rfl, .inr ⟨by omega, by decide⟩⟩, ⟨_, rfl⟩, ⟨_, rfl⟩, ⟨_, rfl, ?_⟩, trivial, ⟨⟨_, rfl⟩, _, rfl⟩, ⟨_, rfl⟩, trivial⟩
  intro h; cases h

set_option synthInstance.maxSize 1000 in
/-- In random mode every announced place must be used: with three places announced per row and one column inserted in row 0,
the copy packs the rows into the shared index array and thereby changes the columns seen through the ORIGINAL. -/
theorem C08_gap_counterexample :
    (match ([.random 3 9 0 [.set 0 3, .set 1 3, .set 2 3] [(0, 0), (1, 3), (1, 4), (1, 5), (2, 6), (2, 7), (2, 8)]] :
        List (Op Int)).foldlM step ⟨demoHeap, []⟩ with
    | .ok w => (see w 0, match step w (.copy 0) with
      | .ok w' => see w' 0
      | _ => .ub)
    | _ => (.ub, .ub)) =
    (.ok (3, 9, [[(0, 0)], [(3, 0), (4, 0), (5, 0)], [(6, 0), (7, 0), (8, 0)]]),
     .ok (3, 9, [[(0, 0)], [(5, 0), (6, 0), (7, 0)], [(8, 0), (7, 0), (8, 0)]])) := by decide +kernel

/-- A matrix built row by row without announced number of entries must not be scaled after it was copied: the copy caches the
number of entries in the SOURCE, whose `operator*=` then runs over a data array that does not exist. -/
theorem C08_scale_after_copy_counterexample :
    (match ([.rowWise 1 1 0 .rowWise [[0]], .copy 0] : List (Op Int)).foldlM step ⟨demoHeap, []⟩ with
    | .ok w => (match step w (.scale 0 (· * 2)) with | .ub => true | _ => false)
    | _ => false) = true ∧
    (match ([.rowWise 1 1 0 .rowWise [[0]], .scale 0 (· * 2)] : List (Op Int)).foldlM step ⟨demoHeap, []⟩ with
    | .ok _ => true
    | _ => false) = true := by decide +kernel

end BcrsWorld
end Istl
