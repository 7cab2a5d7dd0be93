import Verif.Spec.Iter
import Verif.Lemmas.BcrsWorld

/-! Loops over rows and entries. -/

namespace Istl
namespace Iter
open Bcrs BcrsWorld
variable {B τ I σ : Type}

/-- A loop whose iterators are known ends in exactly one way. -/
theorem Runs.count {ne : I → σ → Res Bool} {next : I → I} {body : I → σ → Res σ → Prop} (P : Nat → σ → Prop) :
    ∀ (n : Nat) (it : Nat → I) (k0 : Nat),
    (∀ k, k < n → next (it (k0 + k)) = it (k0 + k + 1)) →
    (∀ k s, k ≤ n → P (k0 + k) s → ne (it (k0 + k)) s = .ok (decide (k < n))) →
    (∀ k s, k < n → P (k0 + k) s → ∃ s', (∀ r, body (it (k0 + k)) s r ↔ r = .ok s') ∧ P (k0 + k + 1) s') →
    ∀ s, P k0 s → ∃ s', P (k0 + n) s' ∧ ∀ r, Runs ne next body (it k0) s r ↔ r = .ok s'
  | 0, it, k0, _, hne, _, s, hs => by
    have h0 := hne 0 s le_rfl hs
    simp only [Nat.add_zero, Nat.lt_irrefl, decide_false] at h0
    refine ⟨s, hs, fun r => ⟨fun h => ?_, fun h => h ▸ .done h0⟩⟩
    cases h with
    | done _ => rfl
    | step h _ _ => rw [h0] at h; cases h
    | bodyThrows h _ => rw [h0] at h; cases h
    | bodyUndef h _ => rw [h0] at h; cases h
    | testThrows h => rw [h0] at h; cases h
    | testUndef h => rw [h0] at h; cases h
  | n + 1, it, k0, hnext, hne, hb, s, hs => by
    have h0 := hne 0 s (by omega) hs
    simp only [Nat.add_zero, Nat.succ_pos, decide_true] at h0
    obtain ⟨s1, b1, p1⟩ := hb 0 s (by omega) hs
    simp only [Nat.add_zero] at b1 p1
    have hn := hnext 0 (by omega)
    simp only [Nat.add_zero] at hn
    obtain ⟨s', p', h'⟩ := Runs.count (ne := ne) (next := next) (body := body) P n it (k0 + 1)
      (fun k hk => by have := hnext (k + 1) (by omega); rwa [show k0 + 1 + k = k0 + (k + 1) by omega])
      (fun k s hk hp => by
        rw [show k0 + 1 + k = k0 + (k + 1) by omega] at hp ⊢
        rw [hne (k + 1) s (by omega) hp]; simp)
      (fun k s hk hp => by
        rw [show k0 + 1 + k = k0 + (k + 1) by omega] at hp ⊢
        exact hb (k + 1) s (by omega) hp) s1 p1
    refine ⟨s', by rwa [show k0 + (n + 1) = k0 + 1 + n by omega], fun r => ⟨fun h => ?_, fun h => ?_⟩⟩
    · cases h with
      | done h => rw [h0] at h; cases h
      | step _ hbd hr =>
        have e := (b1 _).1 hbd
        cases e
        rw [hn] at hr
        exact (h' r).1 hr
      | bodyThrows _ hbd => cases (b1 _).1 hbd
      | bodyUndef _ hbd => cases (b1 _).1 hbd
      | testThrows h => rw [h0] at h; cases h
      | testUndef h => rw [h0] at h; cases h
    · refine .step h0 ((b1 _).2 rfl) ?_
      rw [hn]
      exact (h' r).2 h

/-- Position of the iterator after `k` steps. -/
def pos (W n : Nat) : Dir → Nat → Nat
  | .up, k => k
  | .down, k => if k < n then n - 1 - k else W - 1

theorem pos_lt {W n : Nat} {d : Dir} {k : Nat} (h : k < n) : pos W n d k < n := by
  cases d <;> simp only [pos]
  · exact h
  · rw [if_pos h]; omega

theorem dec_eq {W i : Nat} (h : i < W) : dec W i = if i = 0 then W - 1 else i - 1 := by
  unfold dec
  split
  · subst i; rw [Nat.zero_add, Nat.mod_eq_of_lt (by omega)]
  · rw [show i + (W - 1) = (i - 1) + W by omega, Nat.add_mod_right, Nat.mod_eq_of_lt (by omega)]

theorem inc_eq {W i : Nat} (h : i + 1 < W) : inc W i = i + 1 := Nat.mod_eq_of_lt h

theorem pos_next_up {W n k : Nat} (h : n < W) (hk : k < n) : inc W (pos W n .up k) = pos W n .up (k + 1) :=
  inc_eq (by simp only [pos]; omega)

theorem pos_next_down {W n k : Nat} (h : n < W) (hk : k < n) : dec W (pos W n .down k) = pos W n .down (k + 1) := by
  simp only [pos, if_pos hk]
  rw [dec_eq (by omega)]
  split_ifs <;> omega

theorem pos_zero_down {W n : Nat} (h : n < W) : dec W n = pos W n .down 0 := by
  rw [dec_eq h]; simp only [pos]; split_ifs <;> omega

theorem pos_stop {W n : Nat} (h : n < W) (d : Dir) {k : Nat} (hk : k ≤ n) :
    (!(pos W n d k == (match d with | .up => n | .down => W - 1))) = decide (k < n) := by
  cases d
  · simp only [pos]
    by_cases e : k = n
    · subst e; simp
    · have : k < n := by omega
      simp [this, e]
  · simp only [pos]
    by_cases e : k < n
    · have : n - 1 - k ≠ W - 1 := by omega
      simp [e, this]
    · simp [e]

theorem order_get {α : Type} (d : Dir) (W : Nat) (l : List α) {k : Nat} (hk : k < l.length) :
    (d.order l)[k]? = l[pos W l.length d k]? := by
  cases d
  · rfl
  · simp only [Dir.order, pos, if_pos hk]
    rw [List.getElem?_reverse hk]

theorem order_length {α : Type} (d : Dir) (l : List α) : (d.order l).length = l.length := by
  cases d <;> simp [Dir.order]

theorem walk_append (x : Nat) (f : Nat → Nat → B → τ → Option B × τ) (l1 l2 : List (Nat × Nat × B)) (s : τ) :
    walk x f (l1 ++ l2) s =
      ((walk x f l1 s).1 ++ (walk x f l2 (walk x f l1 s).2).1, (walk x f l2 (walk x f l1 s).2).2) := by
  induction l1 generalizing s with
  | nil => rfl
  | cons e l1 ih =>
    obtain ⟨i, c, b⟩ := e
    simp only [List.cons_append, walk]
    split
    · exact ih _
    · rw [ih]; rfl

/-! ### Programs of assignments to one matrix -/

/-- State after the assignments `ops`. -/
structure Good (z : B) (x : Nat) (S : State B) (w : World B) (ops : List (Op B)) (w' : World B) (u : Val B) : Prop where
  run : ops.foldlM step w = .ok w'
  inv : Inv z w' (BcrsWorld.run z S ops)
  ok : AllValid z S ops
  objs : w'.objs = w.objs
  val : (BcrsWorld.run z S ops)[x]? = some (some u)

theorem allValid_snoc (z : B) (S : State B) (l : List (Op B)) (op : Op B) :
    AllValid z S (l ++ [op]) ↔ AllValid z S l ∧ Valid (BcrsWorld.run z S l) op := by
  induction l generalizing S with
  | nil => simp [AllValid, BcrsWorld.run]
  | cons a l ih => simp only [List.cons_append, AllValid, ih, BcrsWorld.run, List.foldl_cons]; tauto

theorem foldlM_snoc (w : World B) (l : List (Op B)) (op : Op B) :
    (l ++ [op]).foldlM step w = (l.foldlM step w >>= fun w' => step w' op) := by
  rw [List.foldlM_append]
  cases l.foldlM step w with
  | ok a => simp only [Res.ok_bind, List.foldlM_cons, List.foldlM_nil]; cases step a op <;> rfl
  | throw e => rfl
  | ub => rfl

/-- What an iterator at entry `k` of row `i` reads, and what a write through it does. -/
theorem Good.entry {z : B} {x : Nat} {S : State B} {w : World B} {ops : List (Op B)} {w' : World B} {u : Val B}
    (G : Good z x S w ops w' u) {o : Obj B} (ho : w.objs[x]? = some (some o)) {i k c : Nat} {b : B} {row : Row B}
    (hi : u.rows[i]? = some row) (hk : row[k]? = some (c, b)) {ws : List Win} (hws : RowsAre o ws) {wi : Win}
    (hwi : ws[i]? = some wi) :
    ColIt.index w'.h ⟨wi.p, wi.j, k⟩ = .ok c ∧ ColIt.deref w'.h ⟨wi.p, wi.j, k⟩ = .ok b ∧
    ∀ y, ∃ as, ColIt.store w'.h ⟨wi.p, wi.j, k⟩ y = .ok as ∧
      Good z x S w (ops ++ [.modify x i c fun _ => y]) { w' with h := { w'.h with as := as } }
        { u with rows := u.rows.modify i (mapAt c fun _ => y) } := by
  obtain ⟨o', ho', R⟩ := G.inv.rep x u G.val
  have : o' = o := by rw [G.objs, ho] at ho'; simpa using ho'.symm
  subst this
  obtain ⟨ws', hws', hl, hw⟩ := R.wins
  have : ws' = ws := by rw [← hws'.getD, ← hws.getD]
  subst this
  obtain ⟨h1, e1⟩ := List.getElem?_eq_some_iff.mp hwi
  obtain ⟨h2, e2⟩ := List.getElem?_eq_some_iff.mp hi
  obtain ⟨s1, s2, s3⟩ := hw i h1 h2
  rw [e1, e2] at s1 s2 s3
  have hkl : k < row.length := (List.getElem?_eq_some_iff.mp hk).1
  obtain ⟨cx, hcx, rj, -⟩ := read_at s2 (q := k) (by omega)
  obtain ⟨bx, hbx, ra, wa⟩ := read_at s3 (q := k) (by omega)
  rw [List.getElem?_map, hk] at hcx hbx
  simp only [Option.map_some, Option.some.injEq] at hcx hbx
  subst hcx hbx
  refine ⟨?_, ?_, fun y => ?_⟩
  · simp [ColIt.index, at1, shift, rj]
  · simp [ColIt.deref, at1, shift, ra]
  · have hHas : row.Has c := by
      exact ⟨b, List.mem_of_getElem? hk⟩
    have hv : Valid (BcrsWorld.run z S ops) (.modify x i c fun _ => y) := ⟨u, get_iff.mpr G.val, row, hi, hHas⟩
    obtain ⟨as, m1, m2, m3, m4⟩ := R.modify (fun _ => y) hi hHas
    obtain ⟨w2, t1, t2⟩ := step_inv G.inv _ hv
    have hw2 : w2 = { w' with h := { w'.h with as := as } } := by
      simp only [step, on, obj_ok ho', Res.ok_bind, call, m1, Res.ok.injEq] at t1
      rw [← t1]
      congr 1
      apply List.ext_getElem (by simp)
      intro q q1 q2
      rw [List.getElem_set]
      split
      · rename_i hq; subst hq
        exact ((List.getElem?_eq_some_iff.mp ho').2).symm
      · rfl
    -- the same write
    have hst : ColIt.store w'.h ⟨wi.p, wi.j, k⟩ y = .ok as := by
      unfold ColIt.store shift
      rw [wa y]
      have hrow := R.writeRow hws h1 h2 ((row.map Prod.snd).set k y) (by rw [e2]; simp)
      obtain ⟨as', q1, -⟩ := hrow
      rw [e1] at q1
      rw [q1]
      -- modifyEntry writes the same
      unfold Bcrs.modifyEntry at m1
      rw [Cmd.bind_ok (row_ok (s := ⟨w'.h, o'⟩) hws h1), Cmd.bind_ok (Cmd.get_apply _)] at m1
      dsimp only at m1
      rw [e1, s2, Cmd.bind_ok (Cmd.lift_ok _ _)] at m1
      have hasc := R.asc _ (List.getElem_mem h2)
      rw [e2] at hasc
      have hpw : (row.map Prod.fst).Pairwise (· ≤ ·) := by
        exact hasc.imp fun h => Nat.le_of_lt h
      have hlb := lowerBound_eq (row.map Prod.fst) c hpw
      obtain ⟨t3, t4⟩ := sorted_takeWhile (row.map Prod.fst) c hpw
      have hck : (row.map Prod.fst)[k]'(by simpa using hkl) = c := by
        have := (List.getElem?_eq_some_iff.mp hk).2
        simp [this]
      have hlt : ∀ s t (hs : s < (row.map Prod.fst).length) (ht : t < (row.map Prod.fst).length), s < t →
          (row.map Prod.fst)[s] < (row.map Prod.fst)[t] := by
        intro s t hs ht hst
        exact List.pairwise_iff_getElem.mp hasc s t hs ht hst
      have hlk : ((row.map Prod.fst).takeWhile (· < c)).length = k := by
        by_contra hne
        rcases Nat.lt_or_ge k ((row.map Prod.fst).takeWhile (· < c)).length with hlt' | hge
        · have := t3 k (by simpa using hkl) hlt'
          omega
        · have hb : ((row.map Prod.fst).takeWhile (· < c)).length < (row.map Prod.fst).length := by simp; simp at hge hne; omega
          have h3 := t4 _ hb le_rfl
          have h4 := hlt _ k hb (by simpa using hkl) (by omega)
          omega
      rw [hlk, List.length_map, ← s1] at hlb
      rw [hlb, Cmd.bind_ok (Cmd.lift_ok _ _), if_neg (by omega)] at m1
      have hrd : rd (row.map Prod.fst) k = .ok c := by
        unfold rd; rw [List.getElem?_map, hk]; rfl
      rw [hrd, Cmd.bind_ok (Cmd.lift_ok _ _), if_neg (by simp), ra, Cmd.bind_ok (Cmd.lift_ok _ _)] at m1
      rw [List.map_cons, List.map_nil, wa y, q1, Cmd.bind_ok (Cmd.lift_ok _ _)] at m1
      simp only [Cmd.modify_apply, Out.ok.injEq, St.mk.injEq, Heap.mk.injEq, true_and, and_true] at m1
      have : as' = as := by tauto
      rw [this]
    refine ⟨as, hst, ?_⟩
    rw [hw2] at t1 t2
    have hrun : BcrsWorld.run z S (ops ++ [.modify x i c fun _ => y]) =
        BcrsWorld.apply z (BcrsWorld.run z S ops) (.modify x i c fun _ => y) := by
      simp [BcrsWorld.run, List.foldl_append]
    refine ⟨?_, ?_, ?_, G.objs, ?_⟩
    · rw [foldlM_snoc, G.run, Res.ok_bind, t1]
    · rw [hrun]; exact t2
    · rw [allValid_snoc]; exact ⟨G.ok, hv⟩
    · rw [hrun]
      simp only [BcrsWorld.apply, upd_eq _ G.val]
      simp [(List.getElem?_eq_some_iff.mp G.val).1]

theorem set_modify {α : Type} (l : List α) (i : Nat) (a : α) (f : α → α) : (l.set i a).modify i f = l.set i (f a) := by
  apply List.ext_getElem (by simp)
  intro t h1 h2
  rw [List.getElem_modify, List.getElem_set, List.getElem_set]
  split
  · rename_i h; rfl
  · rfl

theorem mapAt_fst (c : Nat) (f : B → B) (r : Row B) : (mapAt c f r).map Prod.fst = r.map Prod.fst := by
  simp only [mapAt, List.map_map]
  apply List.map_congr_left
  intro e _
  simp only [Function.comp_apply]
  split <;> rfl

theorem mapAt_get_ne (c : Nat) (f : B → B) (r : Row B) {t : Nat} {e : Nat × B} (h : r[t]? = some e) (hne : e.1 ≠ c) :
    (mapAt c f r)[t]? = some e := by
  simp [mapAt, h, hne]

theorem pos_inj {W n : Nat} (d : Dir) {a b : Nat} (ha : a < n) (hb : b < n) (h : pos W n d a = pos W n d b) : a = b := by
  cases d
  · exact h
  · simp only [pos, if_pos ha, if_pos hb] at h; omega

theorem drop_take_succ {α : Type} (l : List α) {k0 k : Nat} (h : k0 ≤ k) (hk : k < l.length) :
    (l.take (k + 1)).drop k0 = (l.take k).drop k0 ++ [l[k]] := by
  rw [List.take_add_one, List.drop_append_of_le_length (by simp; omega), List.getElem?_eq_getElem hk]
  rfl

/-- The loop over one row. -/
theorem rowPassFrom {W : Nat} (d : Dir) (f : Nat → Nat → B → τ → Option B × τ) {z : B} {x : Nat} {S : State B} {w : World B}
    {ops : List (Op B)} {wc : World B} {u : Val B} (G : Good z x S w ops wc u) {o : Obj B}
    (ho : w.objs[x]? = some (some o)) {ri : RowIt} {row : Row B} (hi : u.rows[ri.i]? = some row) (hW : row.length < W)
    {ws : List Win} (hws : RowsAre o ws) {wi : Win} (hwi : ws[ri.i]? = some wi) (hri : ri.deref = .ok wi) {k0 : Nat}
    (hk0 : k0 ≤ row.length) (s : τ) :
    ∃ w' row', Good z x S w (ops ++ (walk x f (((d.order row).drop k0).map fun e => (ri.i, e.1, e.2)) s).1) w'
        { u with rows := u.rows.set ri.i row' } ∧ row'.map Prod.fst = row.map Prod.fst ∧
      ∀ r, RowPassFrom W d f ri ⟨wi.p, wi.j, pos W row.length d k0⟩ (wc, s) r ↔
        r = .ok (w', (walk x f (((d.order row).drop k0).map fun e => (ri.i, e.1, e.2)) s).2) := by
  have hsz : wi.sz = row.length := by
    obtain ⟨o', ho', R⟩ := G.inv.rep x u G.val
    have : o' = o := by rw [G.objs, ho] at ho'; simpa using ho'.symm
    subst this
    obtain ⟨ws', hws', hl, hw⟩ := R.wins
    have : ws' = ws := by rw [← hws'.getD, ← hws.getD]
    subst this
    obtain ⟨h1, e1⟩ := List.getElem?_eq_some_iff.mp hwi
    obtain ⟨h2, e2⟩ := List.getElem?_eq_some_iff.mp hi
    have := (hw _ h1 h2).1
    rw [e1, e2] at this
    exact this
  have hnd : (row.map Prod.fst).Nodup := by
    obtain ⟨o', ho', R⟩ := G.inv.rep x u G.val
    have := R.asc row (List.mem_of_getElem? hi)
    exact this.imp fun h => Nat.ne_of_lt h
  have hil : ri.i < u.rows.length := (List.getElem?_eq_some_iff.mp hi).1
  let acc : Nat → List (Op B) × τ := fun k => walk x f ((((d.order row).take k).drop k0).map fun e => (ri.i, e.1, e.2)) s
  let P : Nat → World B × τ → Prop := fun k st => ∃ row', Good z x S w (ops ++ (acc k).1) st.1
      { u with rows := u.rows.set ri.i row' } ∧ st.2 = (acc k).2 ∧ row'.map Prod.fst = row.map Prod.fst ∧
      ∀ k', k ≤ k' → k' < row.length → row'[pos W row.length d k']? = row[pos W row.length d k']?
  have hP0 : P k0 (wc, s) := by
    refine ⟨row, ?_, ?_, rfl, fun _ _ _ => rfl⟩
    · have e : (acc k0).1 = [] := by
        simp only [acc]
        rw [List.drop_eq_nil_of_le (by simp)]
        rfl
      rw [e, List.append_nil]
      have : u.rows.set ri.i row = u.rows := by
        apply List.ext_getElem (by simp)
        intro t h1 h2
        rw [List.getElem_set]
        split
        · rename_i ht
          subst ht
          exact (List.getElem?_eq_some_iff.mp hi).2.symm
        · rfl
      rw [this]
      exact G
    · simp only [acc]
      rw [List.drop_eq_nil_of_le (by simp)]
      rfl
  obtain ⟨st', ⟨row', g1, g2, g3, -⟩, hr⟩ := Runs.count (ne := fun ci (_ : World B × τ) => do
      let w ← ri.deref
      .ok (!(ci.equals (colStop W w d)))) (next := colNext W d) (body := fun ci st r => r = entryBody f ri ci st) P
    (row.length - k0) (fun k => ⟨wi.p, wi.j, pos W row.length d k⟩) k0
    (fun k hk => by
      cases d
      · simp only [colNext, ColIt.increment]
        rw [pos_next_up hW (by omega)]
      · simp only [colNext, ColIt.decrement]
        rw [pos_next_down hW (by omega)])
    (fun k st hk _ => by
      simp only [hri, Res.ok_bind, ColIt.equals]
      have := pos_stop hW d (k := k0 + k) (by omega)
      rw [show decide (k < row.length - k0) = decide (k0 + k < row.length) by congr 1; apply propext; omega, ← this]
      cases d
      · simp only [colStop, colEnd, hsz]
      · simp only [colStop, colBeforeBegin])
    (fun k st hk hp => by
      obtain ⟨row', g1, g2, g3, g4⟩ := hp
      have hkl : k0 + k < row.length := by omega
      have hko : k0 + k < (d.order row).length := by rw [order_length]; exact hkl
      obtain ⟨⟨c, b⟩, hcb⟩ : ∃ e, (d.order row)[k0 + k] = e := ⟨_, rfl⟩
      have hget : row[pos W row.length d (k0 + k)]? = some (c, b) := by
        rw [← order_get d W row hkl, List.getElem?_eq_getElem hko, hcb]
      have hget' := (g4 (k0 + k) le_rfl hkl).trans hget
      have hacc : acc (k0 + k + 1) = ((acc (k0 + k)).1 ++ (walk x f [(ri.i, c, b)] (acc (k0 + k)).2).1,
          (walk x f [(ri.i, c, b)] (acc (k0 + k)).2).2) := by
        simp only [acc]
        rw [drop_take_succ _ (by omega) hko, hcb, List.map_append, walk_append]
        rfl
      obtain ⟨q1, q2, q3⟩ := g1.entry ho (i := ri.i) (k := pos W row.length d (k0 + k)) (c := c) (b := b) (row := row')
        (by simp [hil]) hget' hws hwi
      have hbody : ∀ r, (r = entryBody f ri ⟨wi.p, wi.j, pos W row.length d (k0 + k)⟩ st) ↔
          (r = match f ri.i c b st.2 with
            | (none, s) => .ok (st.1, s)
            | (some y, s) => do
              let as ← ColIt.store st.1.h ⟨wi.p, wi.j, pos W row.length d (k0 + k)⟩ y
              .ok ({ st.1 with h := { st.1.h with as := as } }, s)) := by
        intro r
        simp only [entryBody, q1, q2, Res.ok_bind, RowIt.index]
        rcases f ri.i c b st.2 with ⟨_ | y, s1⟩ <;> exact Iff.rfl
      simp only [hbody]
      rw [g2]
      rcases hf : f ri.i c b (acc (k0 + k)).2 with ⟨_ | y, s1⟩
      · refine ⟨(st.1, s1), fun r => Iff.rfl, row', ?_, ?_, g3, fun k' h1 h2 => g4 k' (by omega) h2⟩
        · rw [hacc]; simp only [walk, hf, List.append_nil]; exact g1
        · rw [hacc]; simp only [walk, hf]
      · obtain ⟨as, q4, q5⟩ := q3 y
        refine ⟨({ st.1 with h := { st.1.h with as := as } }, s1), fun r => ?_, mapAt c (fun _ => y) row', ?_, ?_, ?_, ?_⟩
        · simp only [q4, Res.ok_bind]
        · rw [hacc]
          simp only [walk, hf]
          rw [← List.append_assoc]
          have e := set_modify u.rows ri.i row' (mapAt c fun _ => y)
          simp only [e] at q5
          exact q5
        · rw [hacc]; simp only [walk, hf]
        · rw [mapAt_fst, g3]
        · intro k' h1 h2
          rw [← g4 k' (by omega) h2]
          have hp' : pos W row.length d k' < row.length := pos_lt h2
          obtain ⟨e, he⟩ : ∃ e, row'[pos W row.length d k']? = some e := by
            rw [g4 k' (by omega) h2]
            exact ⟨_, List.getElem?_eq_getElem hp'⟩
          rw [he]
          refine mapAt_get_ne c _ row' he fun hc => ?_
          have he2 := (g4 k' (by omega) h2).symm.trans he
          have a1 : (row.map Prod.fst)[pos W row.length d k']? = some c := by
            rw [List.getElem?_map, he2, Option.map_some, hc]
          have a2 : (row.map Prod.fst)[pos W row.length d (k0 + k)]? = some c := by
            rw [List.getElem?_map, hget, Option.map_some]
          obtain ⟨b1, b2⟩ := List.getElem?_eq_some_iff.mp a1
          obtain ⟨b3, b4⟩ := List.getElem?_eq_some_iff.mp a2
          have := (List.Nodup.getElem_inj_iff hnd).1 (b2.trans b4.symm)
          have := pos_inj d h2 hkl this
          omega)
    (wc, s) hP0
  have hfull : acc (k0 + (row.length - k0)) = walk x f (((d.order row).drop k0).map fun e => (ri.i, e.1, e.2)) s := by
    simp only [acc]
    rw [List.take_of_length_le (by rw [order_length]; omega)]
  rw [hfull] at g1 g2
  refine ⟨st'.1, row', g1, g3, fun r => ?_⟩
  rw [← g2]
  exact hr r

/-- The loop over all rows. -/
theorem pass {W : Nat} (dr dc : Dir) (f : Nat → Nat → B → τ → Option B × τ) {z : B} {x : Nat} {S : State B} {w : World B}
    (I : Inv z w S) {v : Val B} (hv : S[x]? = some (some v)) (hW : Fits W v) (s : τ) :
    ∃ w' u, Good z x S w (walk x f (visits dr dc v.rows) s).1 w' u ∧
      ∀ r, Pass W dr dc x f w s r ↔ r = .ok (w', (walk x f (visits dr dc v.rows) s).2) := by
  obtain ⟨o, ho, R⟩ := I.rep x v hv
  obtain ⟨ws, hws, hl, -⟩ := R.wins
  have hn : o.n = v.rows.length := by rw [← hws.1, hl]
  have hnW : v.rows.length < W := by rw [← hn, R.hn]; exact hW.1
  have G0 : Good z x S w [] w v := ⟨rfl, I, trivial, rfl, hv⟩
  let g : Row B × Nat → List (Nat × Nat × B) := fun p => (dc.order p.1).map fun e => (p.2, e.1, e.2)
  let acc : Nat → List (Op B) × τ := fun k => walk x f (((dr.order v.rows.zipIdx).take k).flatMap g) s
  let P : Nat → World B × τ → Prop := fun k st => ∃ u, Good z x S w (acc k).1 st.1 u ∧ st.2 = (acc k).2 ∧
      u.rows.length = v.rows.length ∧
      ∀ k', k ≤ k' → k' < v.rows.length → u.rows[pos W v.rows.length dr k']? = v.rows[pos W v.rows.length dr k']?
  have hP0 : P 0 (w, s) := ⟨v, by simpa [acc, walk] using G0, by simp [acc, walk], rfl, fun _ _ _ => rfl⟩
  obtain ⟨st', ⟨u, g1, g2, -, -⟩, hr⟩ := Runs.count (ne := fun ri (st : World B × τ) => do
      let o ← obj st.1 x
      .ok (!(ri.equals (rowStop W o dr)))) (next := rowNext W dr) (body := RowPass W dc f) P
    v.rows.length (fun k => ⟨o.rows, pos W v.rows.length dr k⟩) 0
    (fun k hk => by
      simp only [Nat.zero_add]
      cases dr
      · simp only [rowNext, RowIt.increment]
        rw [pos_next_up hnW (by omega)]
      · simp only [rowNext, RowIt.decrement]
        rw [pos_next_down hnW (by omega)])
    (fun k st hk hp => by
      simp only [Nat.zero_add] at hp ⊢
      obtain ⟨u, g1, -⟩ := hp
      have hob : st.1.objs[x]? = some (some o) := by rw [g1.objs, ho]
      simp only [obj_ok hob, Res.ok_bind, RowIt.equals]
      rw [← pos_stop hnW dr hk]
      cases dr
      · simp only [rowStop, rowEnd, hn]
      · simp only [rowStop, rowBeforeBegin])
    (fun k st hk hp => by
      simp only [Nat.zero_add] at hp ⊢
      obtain ⟨u, g1, g2, g3, g4⟩ := hp
      have hpl : pos W v.rows.length dr k < v.rows.length := pos_lt hk
      have hi := (g4 k le_rfl hk).trans (List.getElem?_eq_getElem hpl)
      have hwl : pos W v.rows.length dr k < ws.length := by rw [hl]; exact hpl
      have hwi : ws[pos W v.rows.length dr k]? = some ws[pos W v.rows.length dr k] := List.getElem?_eq_getElem hwl
      have hri : RowIt.deref ⟨o.rows, pos W v.rows.length dr k⟩ = .ok ws[pos W v.rows.length dr k] := by
        have hr0 : o.rows = some ws := by rw [hws.2, if_neg (by omega)]
        simp only [RowIt.deref, hr0, hwi]
      have hrow : (v.rows[pos W v.rows.length dr k]).length < W := hW.2 _ (List.getElem_mem hpl)
      obtain ⟨w2, row', a1, a2, a3⟩ := rowPassFrom (W := W) dc f g1 ho
        (ri := ⟨o.rows, pos W v.rows.length dr k⟩) hi hrow hws hwi hri (k0 := 0) (Nat.zero_le _) st.2
      have hko : k < (dr.order v.rows.zipIdx).length := by rw [order_length]; simpa using hk
      have hzk : (dr.order v.rows.zipIdx)[k] = (v.rows[pos W v.rows.length dr k], pos W v.rows.length dr k) := by
        have h1 := order_get dr W v.rows.zipIdx (k := k) (by simpa using hk)
        rw [List.getElem?_eq_getElem hko, List.length_zipIdx, List.getElem?_zipIdx, List.getElem?_eq_getElem hpl] at h1
        simpa using h1
      have hacc : acc (k + 1) = ((acc k).1 ++ (walk x f (((dc.order v.rows[pos W v.rows.length dr k]).drop 0).map fun e =>
          (pos W v.rows.length dr k, e.1, e.2)) st.2).1, (walk x f (((dc.order v.rows[pos W v.rows.length dr k]).drop 0).map
          fun e => (pos W v.rows.length dr k, e.1, e.2)) st.2).2) := by
        simp only [acc]
        rw [List.take_add_one, List.getElem?_eq_getElem hko, hzk, g2]
        simp only [Option.toList_some, List.flatMap_append, List.flatMap_cons, List.flatMap_nil, List.append_nil, walk_append,
          List.drop_zero]
        rfl
      refine ⟨(w2, (acc (k + 1)).2), fun r => ?_, { u with rows := u.rows.set (pos W v.rows.length dr k) row' }, ?_, rfl, ?_, ?_⟩
      · have hstart : colStart W ws[pos W v.rows.length dr k] dc =
            ⟨ws[pos W v.rows.length dr k].p, ws[pos W v.rows.length dr k].j,
              pos W (v.rows[pos W v.rows.length dr k]).length dc 0⟩ := by
          have hsz : ws[pos W v.rows.length dr k].sz = (v.rows[pos W v.rows.length dr k]).length := by
            obtain ⟨ws', hws', hl', hw⟩ := R.wins
            have : ws' = ws := by rw [← hws'.getD, ← hws.getD]
            subst this
            exact (hw _ hwl hpl).1
          cases dc
          · rfl
          · simp only [colStart, colBeforeEnd, hsz]
            rw [pos_zero_down hrow]
        unfold RowPass
        rw [hri]
        simp only [hstart]
        rw [hacc]
        exact a3 r
      · rw [hacc]; exact a1
      · simp [g3]
      · intro k' h1 h2
        rw [← g4 k' (by omega) h2]
        have : pos W v.rows.length dr k' ≠ pos W v.rows.length dr k := fun h => by
          have := pos_inj dr h2 hk h
          omega
        simp only
        rw [List.getElem?_set_ne (Ne.symm this)])
    (w, s) hP0
  have hfull : acc (0 + v.rows.length) = walk x f (visits dr dc v.rows) s := by
    simp only [acc, visits]
    rw [List.take_of_length_le (by rw [order_length]; simp)]
  rw [hfull] at g1 g2
  refine ⟨st'.1, u, g1, fun r => ?_⟩
  have hstart : rowStart W o dr = ⟨o.rows, pos W v.rows.length dr 0⟩ := by
    cases dr
    · rfl
    · simp only [rowStart, rowBeforeEnd, hn]
      rw [pos_zero_down hnW]
  unfold Pass
  rw [obj_ok ho]
  simp only
  rw [hstart, ← g2]
  exact hr r

end Iter
end Istl
