import Verif.Lemmas.BcrsRep
import Verif.Lemmas.BcrsFrame
import Verif.Spec.BcrsValues

/-! Memory representation of matrix values and what the operations do to it. -/

namespace Istl
namespace BcrsWorld
open Bcrs
variable {B : Type}

/-- columns of a value -/
def Val.cs (v : Val B) : List (List Nat) := v.rows.map fun r => r.map Prod.fst
/-- values of a value -/
def Val.vs (v : Val B) : List (List B) := v.rows.map fun r => r.map Prod.snd
/-- number of entries -/
def Val.total (v : Val B) : Nat := v.rows.flatten.length

theorem Val.cs_len (v : Val B) : v.cs.flatten.length = v.total := by
  simp [Val.cs, Val.total, List.length_flatten, List.map_map, Function.comp_def]
theorem Val.vs_len (v : Val B) : v.vs.flatten.length = v.total := by
  simp [Val.vs, Val.total, List.length_flatten, List.map_map, Function.comp_def]

/-- One array pair, rows one after the other. -/
structure Packed (h : Heap B) (o : Obj B) (v : Val B) (rj : List Nat) (rv : List B) (ws : List Win) : Prop where
  S : Single h { o with ready := .built } v.cs rj v.cs v.vs rv ws
  rdy : o.ready = .notAllocated ∨ o.ready = .built
  nlo : v.total ≤ o.nnz
  nhi : o.nnz ≤ v.total + rv.length
  al0 : o.alloc = 0 → o.a = none

/-- One array pair per row. -/
structure Lazy (h : Heap B) (o : Obj B) (v : Val B) (ws : List Win) : Prop where
  P : PerRow h o v.cs v.vs ws
  lazy : v.lazy = true
  cnt : o.nnz = 0 ∨ v.counted = true ∧ o.nnz = v.total

/-- The memory represents the value. -/
structure Rep (h : Heap B) (o : Obj B) (v : Val B) : Prop where
  hn : o.n = v.n
  hm : o.m = v.m
  asc : ∀ r ∈ v.rows, Row.Asc r
  alt : (∃ rj rv ws, Packed h o v rj rv ws) ∨ ∃ ws, Lazy h o v ws

/-- `b` is a data block of the matrix. -/
def OwnA (o : Obj B) (b : Nat) : Prop :=
  o.a = some b ∨ ∃ w ∈ o.rows.getD [], 0 < w.sz ∧ w.p.map Ptr.blk = some b
/-- `b` is an index block the matrix refers to. -/
def UseJ (o : Obj B) (b : Nat) : Prop :=
  o.jarr = some b ∨ ∃ w ∈ o.rows.getD [], 0 < w.sz ∧ w.j.map Ptr.blk = some b
/-- `b` is an index block that belongs to the matrix alone. -/
def OwnJ (o : Obj B) (b : Nat) : Prop := o.jarr = none ∧ UseJ o b

theorem holds_frame {α : Type} {M M' : Mem α} {jb : Option Nat} {segs : List (List α)} {rest : List α} (H : M.Holds jb segs rest)
    (h : ∀ b, jb = some b → M'[b]? = M[b]?) : M'.Holds jb segs rest := by
  cases jb with
  | none => exact H
  | some b => simp only [Mem.Holds] at H ⊢; rw [h b rfl, H]

theorem Packed.frame {h h' : Heap B} {o : Obj B} {v : Val B} {rj rv ws} (R : Packed h o v rj rv ws)
    (ha : ∀ b, OwnA o b → h'.as[b]? = h.as[b]?) (hj : ∀ b, UseJ o b → h'.js[b]? = h.js[b]?) : Packed h' o v rj rv ws :=
  { R with S := { R.S with
      hj := holds_frame R.S.hj fun b hb => hj b (.inl hb)
      ha := holds_frame R.S.ha fun b hb => ha b (.inl hb) } }

theorem Lazy.frame {h h' : Heap B} {o : Obj B} {v : Val B} {ws} (R : Lazy h o v ws)
    (ha : ∀ b, OwnA o b → h'.as[b]? = h.as[b]?) (hj : ∀ b, UseJ o b → h'.js[b]? = h.js[b]?) : Lazy h' o v ws := by
  refine { R with P := { R.P with win := ?_ } }
  intro i h1 h2 h3
  obtain ⟨e1, e2, e3⟩ := R.P.win i h1 h2 h3
  refine ⟨e1, e2, fun h0 => ?_⟩
  obtain ⟨jb, ab, f1, f2, f3, f4⟩ := e3 h0
  refine ⟨jb, ab, f1, f2, ?_, ?_⟩
  · rw [hj jb, f3]
    refine .inr ⟨ws[i], ?_, by omega, by rw [f1]; rfl⟩
    rw [R.P.rows.getD]; simp
  · rw [ha ab, f4]
    refine .inr ⟨ws[i], ?_, by omega, by rw [f2]; rfl⟩
    rw [R.P.rows.getD]; simp

theorem Rep.frame {h h' : Heap B} {o : Obj B} {v : Val B} (R : Rep h o v)
    (ha : ∀ b, OwnA o b → h'.as[b]? = h.as[b]?) (hj : ∀ b, UseJ o b → h'.js[b]? = h.js[b]?) : Rep h' o v := by
  refine ⟨R.hn, R.hm, R.asc, ?_⟩
  rcases R.alt with ⟨rj, rv, ws, P⟩ | ⟨ws, L⟩
  · exact .inl ⟨rj, rv, ws, P.frame ha hj⟩
  · exact .inr ⟨ws, L.frame ha hj⟩

theorem Packed.rows {h : Heap B} {o : Obj B} {v : Val B} {rj rv ws} (R : Packed h o v rj rv ws) : RowsAre o ws := R.S.rows

theorem lt_of_get {α : Type} {M : Mem α} {b : Nat} {x : Option (List α)} (h : M[b]? = some x) : b < M.length :=
  (List.getElem?_eq_some_iff.mp h).1

/-- A data block of a packed matrix is its data array. -/
theorem Packed.ownA {h : Heap B} {o : Obj B} {v : Val B} {rj rv ws} (R : Packed h o v rj rv ws) {b : Nat} (hb : OwnA o b) :
    o.a = some b := by
  rcases hb with hb | ⟨w, hw, h0, hp⟩
  · exact hb
  · rw [R.rows.getD] at hw
    obtain ⟨i, hi, rfl⟩ := List.getElem_of_mem hw
    have hc : i < v.cs.length := by rw [R.S.lc]; exact hi
    obtain ⟨e1, e2, e3, e4⟩ := R.S.win i hi hc (by rw [R.S.lv]; exact hi)
    rw [e4 (by omega)] at hp
    cases ha : o.a with
    | none => simp [ha] at hp
    | some c => simp [ha] at hp; rw [hp]

theorem Packed.useJ {h : Heap B} {o : Obj B} {v : Val B} {rj rv ws} (R : Packed h o v rj rv ws) {b : Nat} (hb : UseJ o b) :
    o.jarr = some b := by
  rcases hb with hb | ⟨w, hw, h0, hp⟩
  · exact hb
  · rw [R.rows.getD] at hw
    obtain ⟨i, hi, rfl⟩ := List.getElem_of_mem hw
    have hc : i < v.cs.length := by rw [R.S.lc]; exact hi
    obtain ⟨e1, e2, e3, e4⟩ := R.S.win i hi hc (by rw [R.S.lv]; exact hi)
    rw [e3 (by omega)] at hp
    cases ha : o.jarr with
    | none => simp [ha] at hp
    | some c => simp [ha] at hp; rw [hp]

theorem Packed.ownJ {h : Heap B} {o : Obj B} {v : Val B} {rj rv ws} (R : Packed h o v rj rv ws) {b : Nat} (hb : OwnJ o b) :
    False := by
  have := R.useJ hb.2
  rw [hb.1] at this
  cases this

theorem Rep.liveA {h : Heap B} {o : Obj B} {v : Val B} (R : Rep h o v) {b : Nat} (hb : OwnA o b) : b < h.as.length := by
  rcases R.alt with ⟨rj, rv, ws, P⟩ | ⟨ws, L⟩
  · have ea := P.ownA hb
    have := P.S.ha
    simp only [ea, Mem.Holds] at this
    exact lt_of_get this
  · rcases hb with hb | ⟨w, hw, h0, hp⟩
    · rw [L.P.a0] at hb; cases hb
    · rw [L.P.rows.getD] at hw
      obtain ⟨i, hi, rfl⟩ := List.getElem_of_mem hw
      obtain ⟨e1, e2, e3⟩ := L.P.win i hi (by rw [L.P.lc]; exact hi) (by rw [L.P.lv]; exact hi)
      obtain ⟨jb, ab, f1, f2, f3, f4⟩ := e3 (by omega)
      rw [f2] at hp; simp at hp; subst hp
      exact lt_of_get f4

theorem Rep.liveJ {h : Heap B} {o : Obj B} {v : Val B} (R : Rep h o v) {b : Nat} (hb : UseJ o b) : b < h.js.length := by
  rcases R.alt with ⟨rj, rv, ws, P⟩ | ⟨ws, L⟩
  · have ea := P.useJ hb
    have := P.S.hj
    simp only [ea, Mem.Holds] at this
    exact lt_of_get this
  · rcases hb with hb | ⟨w, hw, h0, hp⟩
    · rw [L.P.j0] at hb; cases hb
    · rw [L.P.rows.getD] at hw
      obtain ⟨i, hi, rfl⟩ := List.getElem_of_mem hw
      obtain ⟨e1, e2, e3⟩ := L.P.win i hi (by rw [L.P.lc]; exact hi) (by rw [L.P.lv]; exact hi)
      obtain ⟨jb, ab, f1, f2, f3, f4⟩ := e3 (by omega)
      rw [f1] at hp; simp at hp; subst hp
      exact lt_of_get f3

/-- The row array of a represented matrix and its reads. -/
theorem Rep.wins {h : Heap B} {o : Obj B} {v : Val B} (R : Rep h o v) : ∃ ws, RowsAre o ws ∧ ws.length = v.rows.length ∧
    ∀ i (h1 : i < ws.length) (h2 : i < v.rows.length), ws[i].sz = v.rows[i].length ∧
      h.js.read ws[i].j ws[i].sz = .ok (v.rows[i].map Prod.fst) ∧ h.as.read ws[i].p ws[i].sz = .ok (v.rows[i].map Prod.snd) := by
  rcases R.alt with ⟨rj, rv, ws, P⟩ | ⟨ws, L⟩
  · have hl : ws.length = v.rows.length := by rw [← P.S.lc]; simp [Val.cs]
    refine ⟨ws, P.rows, hl, fun i h1 h2 => ?_⟩
    have hc : i < v.cs.length := by rw [P.S.lc]; exact h1
    have hv : i < v.vs.length := by rw [P.S.lv]; exact h1
    have e := (P.S.win i h1 hc hv).2.1
    have r1 := P.S.readj h1 hc
    have r2 := P.S.reada h1 hv
    simp only [Val.cs, Val.vs, List.getElem_map, List.length_map] at e r1 r2
    exact ⟨e, r1, r2⟩
  · have hl : ws.length = v.rows.length := by rw [← L.P.lc]; simp [Val.cs]
    refine ⟨ws, L.P.rows, hl, fun i h1 h2 => ?_⟩
    have hc : i < v.cs.length := by rw [L.P.lc]; exact h1
    have hv : i < v.vs.length := by rw [L.P.lv]; exact h1
    have e := (L.P.win i h1 hc hv).2.1
    have r1 := L.P.readj h1 hc
    have r2 := L.P.reada h1 hv
    simp only [Val.cs, Val.vs, List.getElem_map, List.length_map] at e r1 r2
    exact ⟨e, r1, r2⟩

theorem zip_fst_snd {α β : Type} (l : List (α × β)) : (l.map Prod.fst).zip (l.map Prod.snd) = l :=
  (List.zip_of_prod rfl rfl).symm

/-- A represented matrix shows its value. -/
theorem Rep.view {h : Heap B} {o : Obj B} {v : Val B} (R : Rep h o v) : Bcrs.view ⟨h, o⟩ = .ok (v.n, v.m, v.rows) := by
  obtain ⟨ws, hr, hl, hw⟩ := R.wins
  have := view_of_reads (h := h) (o := o) (cs := v.cs) (vs := v.vs) (ws := ws) hr (by simp [Val.cs, hl]) (by simp [Val.vs, hl])
    (by intro i h1 h2; simpa [Val.cs] using (hw i h1 (by omega)).2.1)
    (by intro i h1 h2; simpa [Val.vs] using (hw i h1 (by omega)).2.2)
  rw [this, R.hn, R.hm]
  congr 3
  apply List.ext_getElem (by simp [Val.cs, Val.vs])
  intro i h1 h2
  simp only [Val.cs, Val.vs, List.getElem_zipWith, List.getElem_map]
  exact zip_fst_snd _

theorem Rep.totalSize {h : Heap B} {o : Obj B} {v : Val B} (R : Rep h o v) : Bcrs.totalSize o = v.total := by
  obtain ⟨ws, hr, hl, hw⟩ := R.wins
  rw [totalSize_eq hr, Val.total, List.length_flatten]
  congr 1
  apply List.ext_getElem (by simpa using hl)
  intro i h1 h2
  simp only [List.getElem_map]
  exact (hw i (by simpa using h1) (by simpa using h2)).1

/-- `nonzeroes()` keeps the representation. -/
theorem Rep.count {h : Heap B} {o : Obj B} {v : Val B} (R : Rep h o v) : Rep h (counted o).2 { v with counted := true } ∧
    v.total ≤ (counted o).1 ∧ (counted o).2.nnz = (counted o).1 := by
  have ht := R.totalSize
  have e : counted o = (if o.nnz = 0 then Bcrs.totalSize o else o.nnz, { o with nnz := if o.nnz = 0 then Bcrs.totalSize o else o.nnz }) := rfl
  rw [e, ht]
  rcases R.alt with ⟨rj, rv, ws, P⟩ | ⟨ws, L⟩
  · have hk : (if o.nnz = 0 then v.total else o.nnz) = o.nnz := by
      have := P.nlo
      split <;> omega
    rw [hk]
    refine ⟨⟨R.hn, R.hm, R.asc, .inl ⟨rj, rv, ws, ?_⟩⟩, P.nlo, rfl⟩
    exact ⟨P.S, P.rdy, P.nlo, P.nhi, P.al0⟩
  · have hk : (if o.nnz = 0 then v.total else o.nnz) = v.total := by
      rcases L.cnt with h | ⟨-, h⟩
      · rw [if_pos h]
      · split <;> omega
    rw [hk]
    refine ⟨⟨R.hn, R.hm, R.asc, .inr ⟨ws, ⟨?_, L.lazy, .inr ⟨rfl, rfl⟩⟩⟩⟩, le_rfl, rfl⟩
    exact { L.P with }

/-! ### Value updates -/

/-- Writing a row. -/
theorem Rep.writeRow {h : Heap B} {o : Obj B} {v : Val B} (R : Rep h o v) {ws : List Win} (hr : RowsAre o ws) {i : Nat}
    (h1 : i < ws.length) (h2 : i < v.rows.length) (xs : List B) (hx : xs.length = v.rows[i].length) :
    ∃ as, h.as.write ws[i].p xs = .ok as ∧
      Rep { h with as := as } o { v with rows := v.rows.set i ((v.rows[i].map Prod.fst).zip xs) } ∧
      as.length = h.as.length ∧ ∀ (c : Nat), ¬ OwnA o c → as[c]? = h.as[c]? := by
  have hcs : Val.cs { v with rows := v.rows.set i ((v.rows[i].map Prod.fst).zip xs) } = v.cs := by
    simp only [Val.cs, List.map_set]
    rw [List.map_fst_zip (by simp [hx])]
    apply List.ext_getElem (by simp)
    intro k a b
    rw [List.getElem_set]
    split
    · rename_i hk; subst hk; simp
    · rfl
  have hvs : Val.vs { v with rows := v.rows.set i ((v.rows[i].map Prod.fst).zip xs) } = v.vs.set i xs := by
    simp only [Val.vs, List.map_set]
    rw [List.map_snd_zip (by simp [hx])]
  have htot : Val.total { v with rows := v.rows.set i ((v.rows[i].map Prod.fst).zip xs) } = v.total := by
    rw [← Val.cs_len, hcs, Val.cs_len]
  have hasc : ∀ r ∈ (v.rows.set i ((v.rows[i].map Prod.fst).zip xs)), Row.Asc r := by
    intro r hr'
    rcases List.mem_or_eq_of_mem_set hr' with h | rfl
    · exact R.asc r h
    · unfold Row.Asc
      rw [List.map_fst_zip (by simp [hx])]
      exact R.asc _ (List.getElem_mem h2)
  rcases R.alt with ⟨rj, rv, ws', P⟩ | ⟨ws', L⟩
  · have hww : ws' = ws := by rw [← P.rows.getD, hr.getD]
    subst hww
    have hv : i < v.vs.length := by rw [P.S.lv]; exact h1
    have hc : i < v.cs.length := by rw [P.S.lc]; exact h1
    obtain ⟨e1, e2, e3, e4⟩ := P.S.win i h1 hc hv
    have hxl : xs.length = v.vs[i].length := by simpa [Val.vs] using hx
    obtain ⟨as, w1, w2, w3, w4⟩ := P.S.ha.write hv (p := ws'[i].p) (fun h0 => e4 (by omega)) hxl
    refine ⟨as, w1, ⟨R.hn, R.hm, hasc, .inl ⟨rj, rv, ws', ?_⟩⟩, w3, ?_⟩
    · refine ⟨?_, P.rdy, by rw [htot]; exact P.nlo, by rw [htot]; exact P.nhi, P.al0⟩
      rw [hcs, hvs]
      refine { P.S with lv := by simp [P.S.lv], win := ?_, ha := w2 }
      intro k g1 g2 g3
      have g3' : k < v.vs.length := by simpa using g3
      obtain ⟨d1, d2, d3, d4⟩ := P.S.win k g1 g2 g3'
      refine ⟨?_, d2, d3, ?_⟩
      · rw [List.getElem_set]
        split
        · rename_i hk; subst hk; rw [hxl, e1]
        · exact d1
      · rw [Mem.segOff_set _ _ _ _ hv hxl]; exact d4
    · intro c hc
      exact w4 c fun h => hc (.inl h)
  · have hww : ws' = ws := by rw [← L.P.rows.getD, hr.getD]
    subst hww
    have hv : i < v.vs.length := by rw [L.P.lv]; exact h1
    have hc : i < v.cs.length := by rw [L.P.lc]; exact h1
    obtain ⟨e1, e2, e3⟩ := L.P.win i h1 hc hv
    have hxl : xs.length = v.vs[i].length := by simpa [Val.vs] using hx
    by_cases h0 : 0 < v.cs[i].length
    · obtain ⟨jb, ab, f1, f2, f3, f4⟩ := e3 h0
      have hw : h.as.write ws'[i].p xs = .ok (h.as.set ab (some xs)) := by
        rw [f2]
        have := write_block h.as ab _ xs f4 (by omega)
        rw [this]
      have hblt := lt_of_get f4
      refine ⟨_, hw, ⟨R.hn, R.hm, hasc, .inr ⟨ws', ⟨?_, L.lazy, by rw [htot]; exact L.cnt⟩⟩⟩, by simp, ?_⟩
      · rw [hcs, hvs]
        refine { L.P with lv := by simp [L.P.lv], win := ?_ }
        intro k g1 g2 g3
        have g3' : k < v.vs.length := by simpa using g3
        obtain ⟨d1, d2, d3⟩ := L.P.win k g1 g2 g3'
        rw [List.getElem_set]
        by_cases hk : i = k
        · subst hk
          simp only [if_true]
          refine ⟨by rw [hxl, e1], d2, fun _ => ⟨jb, ab, f1, f2, f3, ?_⟩⟩
          simp [hblt]
        · simp only [if_neg hk]
          refine ⟨d1, d2, fun h => ?_⟩
          obtain ⟨jb', ab', f1', f2', f3', f4'⟩ := d3 h
          refine ⟨jb', ab', f1', f2', f3', ?_⟩
          rw [List.getElem?_set_ne, f4']
          rintro rfl
          exact (L.P.inj i k h1 g1 (by omega) (by omega) hk).2 (by rw [f2, f2'])
      · intro c hc
        rw [List.getElem?_set_ne]
        rintro rfl
        exact hc (.inr ⟨ws'[i], by rw [L.P.rows.getD]; simp, by omega, by rw [f2]; rfl⟩)
    · have hxe : xs = [] := List.length_eq_zero_iff.mp (by omega)
      have hve : v.vs[i] = [] := List.length_eq_zero_iff.mp (by omega)
      refine ⟨h.as, by simp [Mem.write, hxe], ?_, rfl, fun _ _ => rfl⟩
      have : v.rows.set i ((v.rows[i].map Prod.fst).zip xs) = v.rows := by
        apply List.ext_getElem (by simp)
        intro k a b
        rw [List.getElem_set]
        split
        · rename_i hk; subst hk
          simp [Val.vs] at hve
          simp [hxe, hve]
        · rfl
      rw [this]
      exact R

theorem zip_map_snd (f : B → B) (r : Row B) : (r.map Prod.fst).zip ((r.map Prod.snd).map f) = mapVals f r := by
  unfold mapVals
  induction r with
  | nil => rfl
  | cons e r ih => simp only [List.map_cons, List.zip_cons_cons, ih]

/-- The row loop of `A *= k`, `A = k`. -/
theorem Rep.scaleRows (f : B → B) {o : Obj B} {ws : List Win} (hr : RowsAre o ws) (j : Nat) : ∀ (k : Nat) {h : Heap B} {v : Val B},
    Rep h o v → k + j = ws.length →
    ∃ as, Bcrs.scaleRows f h.as (ws.drop k) = .ok as ∧
      Rep { h with as := as } o { v with rows := v.rows.take k ++ (v.rows.drop k).map (mapVals f) } ∧
      as.length = h.as.length ∧ ∀ (c : Nat), ¬ OwnA o c → as[c]? = h.as[c]? := by
  induction j with
  | zero =>
    intro k h v R hk
    have hl : ws.length = v.rows.length := by
      obtain ⟨ws', hr', hl, -⟩ := R.wins
      rw [← hr.getD, hr'.getD, hl]
    rw [List.drop_of_length_le (by omega)]
    refine ⟨h.as, rfl, ?_, rfl, fun _ _ => rfl⟩
    rw [List.drop_of_length_le (by omega), List.take_of_length_le (by omega)]
    simpa using R
  | succ j ih =>
    intro k h v R hk
    obtain ⟨ws', hr', hl, hw⟩ := R.wins
    have hww : ws' = ws := by rw [← hr'.getD, hr.getD]
    subst hww
    have hk1 : k < ws'.length := by omega
    have hk2 : k < v.rows.length := by omega
    obtain ⟨e1, -, e2⟩ := hw k hk1 hk2
    obtain ⟨as, w1, w2, w3, w4⟩ := R.writeRow hr hk1 hk2 ((v.rows[k].map Prod.snd).map f) (by simp)
    obtain ⟨as', g1, g2, g3, g4⟩ := ih (k + 1) w2 (by omega)
    refine ⟨as', ?_, ?_, by rw [g3]; exact w3, fun c hc => by rw [g4 c hc]; exact w4 c hc⟩
    · rw [List.drop_eq_getElem_cons hk1]
      simp only [Bcrs.scaleRows, e2, Res.ok_bind, w1]
      exact g1
    · have : v.rows.take k ++ (v.rows.drop k).map (mapVals f) =
          (v.rows.set k ((v.rows[k].map Prod.fst).zip ((v.rows[k].map Prod.snd).map f))).take (k + 1) ++
            ((v.rows.set k ((v.rows[k].map Prod.fst).zip ((v.rows[k].map Prod.snd).map f))).drop (k + 1)).map (mapVals f) := by
        rw [zip_map_snd, List.drop_eq_getElem_cons hk2, List.map_cons, List.take_succ_eq_append_getElem (by simpa using hk2)]
        rw [List.take_set_of_le (le_refl k)]
        simp only [List.getElem_set_self, List.append_assoc, List.singleton_append]
        rw [List.drop_set_of_lt (by omega)]
      rw [this]
      exact g2

theorem write_prefix {α : Type} (M : Mem α) (b : Nat) (l xs : List α) (h : M[b]? = some (some l)) (hx : xs.length ≤ l.length)
    (hne : xs ≠ []) : M.write (some ⟨b, 0⟩) xs = .ok (M.set b (some (xs ++ l.drop xs.length))) := by
  unfold Mem.write
  rw [if_neg hne]
  simp only [h, Nat.zero_add, if_pos hx, List.take_zero, List.nil_append]

theorem map_flatten_snd (f : B → B) (rows : List (Row B)) :
    (rows.map fun r => (mapVals f r).map Prod.snd).flatten = ((rows.map fun r => r.map Prod.snd).flatten).map f := by
  induction rows with
  | nil => rfl
  | cons r rows ih =>
    simp only [List.map_cons, List.flatten_cons, List.map_append, ih]
    congr 1
    simp [mapVals]

theorem mapVals_fst (f : B → B) (r : Row B) : (mapVals f r).map Prod.fst = r.map Prod.fst := by simp [mapVals]

/-- `A *= k`. -/
theorem Rep.scale (f : B → B) {h : Heap B} {o : Obj B} {v : Val B} (R : Rep h o v)
    (hok : v.lazy = true → v.counted = true → ∀ r ∈ v.rows, r = []) :
    ∃ as, Bcrs.scale f ⟨h, o⟩ = .ok () ⟨{ h with as := as }, o⟩ ∧
      Rep { h with as := as } o { v with rows := v.rows.map (mapVals f) } ∧
      as.length = h.as.length ∧ ∀ (c : Nat), ¬ OwnA o c → as[c]? = h.as[c]? := by
  have hrows : ∀ {ws : List Win}, RowsAre o ws → (o.rows.getD []).take o.n = ws := by
    intro ws hr
    rw [hr.getD, List.take_of_length_le (by rw [hr.1])]
  have zero : o.nnz = 0 → ∃ as, Bcrs.scale f ⟨h, o⟩ = .ok () ⟨{ h with as := as }, o⟩ ∧
      Rep { h with as := as } o { v with rows := v.rows.map (mapVals f) } ∧
      as.length = h.as.length ∧ ∀ (c : Nat), ¬ OwnA o c → as[c]? = h.as[c]? := by
    intro hz
    obtain ⟨ws, hr, -, -⟩ := R.wins
    obtain ⟨as, w1, w2, w3, w4⟩ := R.scaleRows f hr ws.length 0 (by omega)
    refine ⟨as, ?_, by simpa using w2, w3, w4⟩
    unfold Bcrs.scale
    rw [Cmd.bind_ok (Cmd.get_apply _)]
    simp only [hz, lt_irrefl, if_false, hrows hr]
    rw [List.drop_zero] at w1
    rw [w1]
    rfl
  by_cases hz : o.nnz = 0
  · exact zero hz
  rcases R.alt with ⟨rj, rv, ws, P⟩ | ⟨ws, L⟩
  · have hH := P.S.ha
    have hhi := P.nhi
    cases ha : o.a with
    | none =>
      simp only [ha, Mem.Holds] at hH
      have e1 : v.total = 0 := by rw [← Val.vs_len, hH.1]; rfl
      rw [hH.2, e1] at hhi
      simp at hhi; omega
    | some b =>
      simp only [ha, Mem.Holds] at hH
      have hlen : (v.vs.flatten ++ rv).length = v.total + rv.length := by rw [List.length_append, Val.vs_len]
      have hrd : h.as.read (some ⟨b, 0⟩) o.nnz = .ok ((v.vs.flatten ++ rv).take o.nnz) := by
        unfold Mem.read
        rw [if_neg hz]
        simp only [hH]
        rw [if_pos (by rw [hlen]; omega)]
        simp
      set L := v.vs.flatten ++ rv with hL
      have hlo := P.nlo
      have hne : (L.take o.nnz).map f ≠ [] := by
        intro hc
        have : ((L.take o.nnz).map f).length = 0 := by rw [hc]; rfl
        simp only [List.length_map, List.length_take] at this
        omega
      have hwr := write_prefix h.as b L ((L.take o.nnz).map f) hH (by simp) hne
      have hnew : (L.take o.nnz).map f ++ L.drop ((L.take o.nnz).map f).length =
          (Val.vs { v with rows := v.rows.map (mapVals f) }).flatten ++
            ((rv.take (o.nnz - v.total)).map f ++ rv.drop (o.nnz - v.total)) := by
        have e1 : (Val.vs { v with rows := v.rows.map (mapVals f) }).flatten = v.vs.flatten.map f := by
          simp only [Val.vs, List.map_map]
          exact map_flatten_snd f v.rows
        have e2 : ((L.take o.nnz).map f).length = o.nnz := by simp; omega
        rw [e1, e2, hL, List.take_append, List.drop_append, Val.vs_len, List.take_of_length_le (by rw [Val.vs_len]; exact hlo),
          List.drop_of_length_le (by rw [Val.vs_len]; exact hlo)]
        simp
      have hbl := lt_of_get hH
      have hcs : Val.cs { v with rows := v.rows.map (mapVals f) } = v.cs := by
        simp only [Val.cs, List.map_map]
        apply List.map_congr_left
        intro r _
        exact mapVals_fst f r
      have htot : Val.total { v with rows := v.rows.map (mapVals f) } = v.total := by
        rw [← Val.cs_len, hcs, Val.cs_len]
      refine ⟨h.as.set b (some ((L.take o.nnz).map f ++ L.drop ((L.take o.nnz).map f).length)), ?_, ⟨R.hn, R.hm, ?_, .inl ⟨rj, (rv.take (o.nnz - v.total)).map f ++ rv.drop (o.nnz - v.total), ws, ?_⟩⟩, ?_, ?_⟩
      rotate_left
      · intro r hr
        simp only [List.mem_map] at hr
        obtain ⟨r0, hr0, rfl⟩ := hr
        unfold Row.Asc
        rw [mapVals_fst]
        exact R.asc r0 hr0
      · refine ⟨?_, P.rdy, by rw [htot]; exact P.nlo, by rw [htot]; simp; omega, P.al0⟩
        rw [hcs]
        refine { P.S with lv := by simp [Val.vs, ← P.S.lv], win := ?_, ha := ?_ }
        · intro k g1 g2 g3
          have g3' : k < v.vs.length := by simpa [Val.vs] using g3
          obtain ⟨d1, d2, d3, d4⟩ := P.S.win k g1 g2 g3'
          refine ⟨?_, d2, d3, ?_⟩
          · simpa [Val.vs, mapVals] using d1
          · have : Mem.segOff (Val.vs { v with rows := v.rows.map (mapVals f) }) k = Mem.segOff v.vs k := by
              simp only [Mem.segOff, Val.vs, List.map_map, ← List.map_take, List.length_flatten]
              congr 1
              apply List.map_congr_left
              intro r _
              simp [mapVals]
            rw [this]; exact d4
        · simp only [ha, Mem.Holds]
          rw [← hnew]
          exact List.getElem?_set_self hbl
      · simp
      · intro c hc
        rw [List.getElem?_set_ne]
        rintro rfl
        exact hc (.inl ha)
      · unfold Bcrs.scale
        rw [Cmd.bind_ok (Cmd.get_apply _)]
        simp only [Nat.pos_of_ne_zero hz, if_true, ha, Option.map_some, hrd, Cmd.bind_def, Cmd.lift_ok, hwr, Cmd.modify_apply]
  · exfalso
    rcases L.cnt with h | ⟨hc, h⟩
    · exact hz h
    · have := hok L.lazy hc
      apply hz
      rw [h, Val.total, List.length_flatten]
      apply List.sum_eq_zero
      intro x hx
      simp only [List.mem_map] at hx
      obtain ⟨r, hr, rfl⟩ := hx
      rw [this r hr]; rfl

/-- `A = k`. -/
theorem Rep.fill (k : B) {h : Heap B} {o : Obj B} {v : Val B} (R : Rep h o v) :
    ∃ as, Bcrs.fill k ⟨h, o⟩ = .ok () ⟨{ h with as := as }, o⟩ ∧
      Rep { h with as := as } o { v with rows := v.rows.map (mapVals fun _ => k) } ∧
      as.length = h.as.length ∧ ∀ (c : Nat), ¬ OwnA o c → as[c]? = h.as[c]? := by
  obtain ⟨ws, hr, -, -⟩ := R.wins
  obtain ⟨as, w1, w2, w3, w4⟩ := R.scaleRows (fun _ => k) hr ws.length 0 (by omega)
  refine ⟨as, ?_, by simpa using w2, w3, w4⟩
  have hrdy : o.ready = .notAllocated ∨ o.ready = .built := by
    rcases R.alt with ⟨rj, rv, ws, P⟩ | ⟨ws, L⟩
    · exact P.rdy
    · exact .inr L.P.ready
  have hnn : ¬ (o.rows = none ∧ 0 < o.n) := by
    rintro ⟨h1, h2⟩
    rw [hr.2, if_neg (by omega)] at h1
    cases h1
  unfold Bcrs.fill
  rw [Cmd.bind_ok (Cmd.get_apply _)]
  have : ¬ (o.ready ≠ .notAllocated ∧ o.ready ≠ .built) := by tauto
  simp only [this, hnn, if_false]
  rw [hr.getD, List.take_of_length_le (by rw [hr.1])]
  rw [List.drop_zero] at w1
  rw [w1]
  rfl

theorem read_at {α : Type} {M : Mem α} {p : Option Ptr} {k : Nat} {l : List α} (h : M.read p k = .ok l) {q : Nat} (hq : q < k) :
    ∃ x, l[q]? = some x ∧ M.read (p.map fun p => { p with off := p.off + q }) 1 = .ok [x] ∧
      ∀ y, M.write (p.map fun p => { p with off := p.off + q }) [y] = M.write p (l.set q y) := by
  unfold Mem.read at h
  rw [if_neg (by omega)] at h
  cases p with
  | none => cases h
  | some p =>
    simp only at h
    cases hb : M[p.blk]? with
    | none => rw [hb] at h; cases h
    | some ol =>
      rw [hb] at h
      cases ol with
      | none => cases h
      | some bl =>
        simp only at h
        split at h
        · rename_i hle
          simp only [Res.ok.injEq] at h
          subst h
          have hlen : ((bl.drop p.off).take k).length = k := by simp; omega
          refine ⟨bl[p.off + q], ?_, ?_, ?_⟩
          · rw [List.getElem?_take_of_lt hq, List.getElem?_drop, List.getElem?_eq_getElem]
          · unfold Mem.read
            simp only [Option.map_some, hb]
            rw [if_neg (by omega), if_pos (by omega), List.drop_eq_getElem_cons (by omega)]
            rfl
          · intro y
            unfold Mem.write
            have hne : ((bl.drop p.off).take k).set q y ≠ [] := by
              intro hc
              have := congrArg List.length hc
              simp only [List.length_set, hlen, List.length_nil] at this
              omega
            simp only [Option.map_some, hb, List.cons_ne_nil, if_false, hne, List.length_set, hlen, List.length_singleton]
            rw [if_pos (by omega), if_pos hle]
            congr 2
            congr 1
            apply List.ext_getElem?
            intro t
            simp only [List.append_assoc]
            by_cases h1 : t < p.off
            · rw [List.getElem?_append_left (by simp; omega), List.getElem?_append_left (by simp; omega)]
              rw [List.getElem?_take_of_lt (by omega), List.getElem?_take_of_lt (by omega)]
            · rw [List.getElem?_append_right (l₁ := bl.take p.off) (by simp; omega)]
              have e0 : (bl.take p.off).length = p.off := by simp; omega
              rw [e0]
              by_cases h2 : t < p.off + k
              · rw [List.getElem?_append_left (l₁ := ((bl.drop p.off).take k).set q y) (by simp; omega)]
                by_cases h3 : t < p.off + q
                · rw [List.getElem?_append_left (by simp; omega), List.getElem?_take_of_lt (by omega),
                    List.getElem?_set_ne (by omega), List.getElem?_take_of_lt (by omega), List.getElem?_drop]
                  congr 1; omega
                · rw [List.getElem?_append_right (by simp; omega)]
                  have e1 : (bl.take (p.off + q)).length = p.off + q := by simp; omega
                  rw [e1]
                  by_cases h4 : t = p.off + q
                  · subst h4
                    simp only [Nat.sub_self, Nat.add_sub_cancel_left]
                    rw [List.getElem?_set_self (by rw [hlen]; exact hq)]
                    simp
                  · rw [List.getElem?_append_right (by simp; omega), List.getElem?_set_ne (by omega),
                      List.getElem?_take_of_lt (by omega), List.getElem?_drop, List.getElem?_drop]
                    congr 1; simp; omega
              · rw [List.getElem?_append_right (by simp; omega), List.getElem?_append_right (by simp; omega),
                  List.getElem?_append_right (by simp; omega), List.getElem?_drop, List.getElem?_drop]
                congr 1; simp; omega
        · cases h

/-- `A[r][c] = f(A[r][c])` for a stored entry. -/
theorem Rep.modify {h : Heap B} {o : Obj B} {v : Val B} (R : Rep h o v) {r c : Nat} (f : B → B) {rw_ : Row B}
    (hr0 : v.rows[r]? = some rw_) (hc : rw_.Has c) :
    ∃ as, Bcrs.modifyEntry r c f ⟨h, o⟩ = .ok () ⟨{ h with as := as }, o⟩ ∧
      Rep { h with as := as } o { v with rows := v.rows.modify r (mapAt c f) } ∧
      as.length = h.as.length ∧ ∀ (b : Nat), ¬ OwnA o b → as[b]? = h.as[b]? := by
  obtain ⟨ws, hr, hl, hw⟩ := R.wins
  obtain ⟨h2, hrw⟩ := List.getElem?_eq_some_iff.mp hr0
  have h1 : r < ws.length := by omega
  obtain ⟨e1, e2, e3⟩ := hw r h1 h2
  have hasc := R.asc _ (List.getElem_mem h2)
  obtain ⟨e, hem, hec⟩ : ∃ e ∈ v.rows[r], e.1 = c := by
    rw [hrw]
    simpa [Row.Has] using hc
  obtain ⟨q, hq, hqe⟩ := List.getElem_of_mem hem
  set xs := v.rows[r].map Prod.fst with hxs
  have hxl : xs.length = v.rows[r].length := by simp [xs]
  have hxq : ∀ t (ht : t < v.rows[r].length), xs[t]'(by omega) = (v.rows[r][t]).1 := by intro t ht; simp [xs]
  have hlt : ∀ s t (hs : s < xs.length) (ht : t < xs.length), s < t → xs[s] < xs[t] := by
    intro s t hs ht hst
    exact List.pairwise_iff_getElem.mp hasc s t hs ht hst
  have hle : xs.Pairwise (· ≤ ·) := hasc.imp (fun h => Nat.le_of_lt h)
  have hlb := lowerBound_eq xs c hle
  obtain ⟨t1, t2⟩ := sorted_takeWhile xs c hle
  have hlq : (xs.takeWhile (· < c)).length = q := by
    have hcq : xs[q]'(by omega) = c := by rw [hxq q hq, hqe, hec]
    by_contra hne
    rcases Nat.lt_or_ge q (xs.takeWhile (· < c)).length with hlt' | hge
    · have := t1 q (by omega) hlt'
      omega
    · have h3 := t2 (xs.takeWhile (· < c)).length (by omega) le_rfl
      have h4 := hlt (xs.takeWhile (· < c)).length q (by omega) (by omega) (by omega)
      omega
  rw [hlq, hxl] at hlb
  rw [e1] at e2 e3
  obtain ⟨x, hx, hrd, hwr⟩ := read_at e3 (q := q) hq
  have hxe : x = e.2 := by
    rw [List.getElem?_map, List.getElem?_eq_getElem hq, hqe] at hx
    simpa using hx.symm
  obtain ⟨as, w1, w2, w3, w4⟩ := R.writeRow hr h1 h2 ((v.rows[r].map Prod.snd).set q (f x)) (by simp)
  refine ⟨as, ?_, ?_, w3, w4⟩
  · unfold Bcrs.modifyEntry
    rw [Cmd.bind_ok (row_ok (s := ⟨h, o⟩) hr h1), Cmd.bind_ok (Cmd.get_apply _)]
    dsimp only
    rw [e1, e2, Cmd.bind_ok (Cmd.lift_ok _ _), hlb, Cmd.bind_ok (Cmd.lift_ok _ _), if_neg (by omega)]
    have hrdq : rd xs q = .ok c := by
      unfold rd; rw [List.getElem?_eq_getElem (by omega), hxq q hq, hqe, hec]
    rw [hrdq, Cmd.bind_ok (Cmd.lift_ok _ _), if_neg (by simp)]
    rw [hrd, Cmd.bind_ok (Cmd.lift_ok _ _)]
    have : h.as.write (ws[r].p.map fun p => { p with off := p.off + q }) [f x] = .ok as := by rw [hwr, w1]
    simp only [List.map_cons, List.map_nil]
    rw [this, Cmd.bind_ok (Cmd.lift_ok _ _)]
    rfl
  · have : v.rows.modify r (mapAt c f) = v.rows.set r (xs.zip ((v.rows[r].map Prod.snd).set q (f x))) := by
      have e0 : v.rows.modify r (mapAt c f) = v.rows.set r (mapAt c f v.rows[r]) := by
        apply List.ext_getElem (by simp)
        intro t a b
        rw [List.getElem_modify, List.getElem_set]
        split
        · rename_i ht; subst ht; rfl
        · rfl
      rw [e0]
      congr 1
      apply List.ext_getElem
      · simp [mapAt, xs]
      · intro t a b
        have ht : t < v.rows[r].length := by simpa [mapAt] using a
        simp only [mapAt, List.getElem_map, List.getElem_zip, List.getElem_set, hxq t ht]
        by_cases htq : q = t
        · subst htq
          simp only [if_true, hqe, hec, hxe]
        · have : (v.rows[r][t]).1 ≠ c := by
            rw [← hxq t ht, ← hec, ← hqe, ← hxq q hq]
            rcases Nat.lt_or_ge q t with h | h
            · have := hlt q t (by omega) (by omega) h; omega
            · have := hlt t q (by omega) (by omega) (by omega); omega
          rw [if_neg this, if_neg htq]
    rw [this]
    exact w2

end BcrsWorld
end Istl
