import Verif.Model.Bcrs
import Verif.Lemmas.Heap
import Verif.Lemmas.Row
import Mathlib.Data.List.TakeWhile

/-! Helper lemmas about the random build mode. -/

namespace Istl
namespace Bcrs
variable {B : Type}

/-- The row array of a matrix with `n` rows. -/
def RowsAre (o : Obj B) (ws : List Win) : Prop :=
  ws.length = o.n ∧ o.rows = if o.n = 0 then none else some ws

theorem RowsAre.getD {o : Obj B} {ws : List Win} (H : RowsAre o ws) : o.rows.getD [] = ws := by
  rw [H.2]
  split
  · rename_i h
    have := H.1
    rw [h] at this
    simp [List.length_eq_zero_iff.mp this]
  · rfl

theorem row_ok {s : St B} {ws : List Win} (H : RowsAre s.o ws) {i : Nat} (hi : i < ws.length) :
    row i s = .ok ws[i] s := by
  have : s.o.n ≠ 0 := by have := H.1; omega
  simp [row, H.2, this, List.getElem?_eq_getElem hi]

theorem setRow_ok {s : St B} {ws : List Win} (H : RowsAre s.o ws) {i : Nat} (hi : i < ws.length) (w : Win) :
    setRow i w s = .ok () { s with o := { s.o with rows := some (ws.set i w) } } := by
  have : s.o.n ≠ 0 := by have := H.1; omega
  simp [setRow, H.2, this, hi]

/-- State between the constructor and `endrowsizes()`. -/
structure Sizing (s : St B) (n m nnz : Nat) (ws : List Win) : Prop where
  mode : s.o.mode = .random
  ready : s.o.ready = .building
  hn : s.o.n = n
  hm : s.o.m = m
  hnnz : s.o.nnz = nnz
  halloc : s.o.alloc = nnz
  rows : RowsAre s.o ws
  ha : s.o.a = none
  hj : if nnz = 0 then s.o.jarr = none else ∃ b l, s.o.jarr = some b ∧ s.h.js[b]? = some (some l) ∧ l.length = nnz

theorem ctor_sizing (h : Heap B) (o : Obj B) (n m nnz : Nat) :
    ∃ s, ctor n m nnz .random ⟨h, o⟩ = .ok () s ∧ Sizing s n m nnz (List.replicate n ⟨0, none, none⟩) := by
  by_cases hn : n = 0 <;> by_cases hz : nnz = 0
  all_goals
    simp [ctor, allocate, setO, Cmd.bind_def, empty, allocateRows, allocateIdx, Mem.alloc, hn, hz, Nat.pos_of_ne_zero]
    constructor <;> simp [RowsAre, hn, hz]

theorem setrowsize_sizing {s : St B} {n m nnz : Nat} {ws : List Win} (H : Sizing s n m nnz ws) {i : Nat}
    (hi : i < ws.length) (f : Nat → Nat) :
    ∃ s', (do let w ← row i; setRow i { w with sz := f w.sz } : BC B Unit) s = .ok () s' ∧
      Sizing s' n m nnz (ws.set i { ws[i] with sz := f ws[i].sz }) := by
  have hn0 : s.o.n ≠ 0 := by have := H.rows.1; omega
  refine ⟨_, by rw [Cmd.bind_ok (row_ok H.rows hi), setRow_ok H.rows hi], ?_⟩
  constructor
  all_goals try simp [H.mode, H.ready, H.hn, H.hm, H.hnnz, H.halloc, H.ha]
  · have := H.rows.1
    have h3 := H.hn
    rw [h3] at this hn0
    refine ⟨by simpa using this, ?_⟩
    simp only [if_neg hn0]
  · simpa using H.hj

/-- Windows laid out one after the other for segments `segs` of block `jb`. -/
def WinsJ (jb : Option Nat) (segs : List (List Nat)) (ws : List Win) : Prop :=
  ws.length = segs.length ∧ ∀ i (h : i < ws.length) (h' : i < segs.length), ws[i].sz = segs[i].length ∧
    (0 < segs[i].length → ws[i].j = jb.map fun b => ⟨b, Mem.segOff segs i⟩)

theorem segOff_cons {α : Type} (x : List α) (xs : List (List α)) (i : Nat) :
    Mem.segOff (x :: xs) (i + 1) = x.length + Mem.segOff xs i := by
  simp [Mem.segOff]

theorem colPointers_length (jb : Option Nat) (off : Nat) (ws : List Win) : (colPointers jb off ws).length = ws.length := by
  induction ws generalizing off with
  | nil => rfl
  | cons w ws ih => simp [colPointers, ih]

theorem colPointers_get (jb : Option Nat) (m : Nat) (ws : List Win) (off i : Nat) (h : i < (colPointers jb off ws).length)
    (h' : i < ws.length) :
    (colPointers jb off ws)[i].sz = ws[i].sz ∧
    (0 < ws[i].sz → (colPointers jb off ws)[i].j = jb.map fun b =>
      ⟨b, off + Mem.segOff (ws.map fun w => List.replicate w.sz m) i⟩) ∧
    (ws[i].p = none → (colPointers jb off ws)[i].p = none) := by
  induction ws generalizing off i with
  | nil => simp at h'
  | cons w ws ih =>
    cases i with
    | zero =>
      by_cases hw : 0 < w.sz
      · simp [colPointers, hw, Mem.segOff]
      · have : w.sz = 0 := by omega
        simp [colPointers, this]
    | succ i =>
      have := ih (off + w.sz) i (by simpa [colPointers] using h) (by simpa using h')
      simp only [colPointers, List.getElem_cons_succ, List.map_cons, segOff_cons, List.length_replicate]
      refine ⟨this.1, ?_, this.2.2⟩
      intro hp
      rw [this.2.1 hp]
      simp [Nat.add_assoc]

/-- State between `endrowsizes()` and `endindices()`. -/
structure Sized (s : St B) (n m : Nat) (segs : List (List Nat)) (rest : List Nat) (ws : List Win) : Prop where
  mode : s.o.mode = .random
  ready : s.o.ready = .rowSizesBuilt
  hn : s.o.n = n
  hm : s.o.m = m
  hnnz : s.o.nnz = segs.flatten.length + rest.length
  halloc : s.o.alloc = segs.flatten.length + rest.length
  rows : RowsAre s.o ws
  wins : WinsJ s.o.jarr segs ws
  ha : s.o.a = none
  holds : s.h.js.Holds s.o.jarr segs rest

theorem flatten_replicate' {α : Type} (szs : List Nat) (m : α) :
    (szs.map fun k => List.replicate k m).flatten = List.replicate szs.sum m := by
  induction szs with
  | nil => simp
  | cons a t ih => rw [List.map_cons, List.flatten_cons, ih, List.sum_cons, List.replicate_add]

theorem flatten_replicate (szs : List Nat) (m : Nat) :
    (szs.map fun k => List.replicate k m).flatten = List.replicate szs.sum m := by
  induction szs with
  | nil => simp
  | cons a t ih => rw [List.map_cons, List.flatten_cons, ih, List.sum_cons, List.replicate_add]

theorem totalSize_eq {o : Obj B} {ws : List Win} (H : RowsAre o ws) : totalSize o = (ws.map Win.sz).sum := by
  have h1 := H.getD
  unfold totalSize
  rw [h1, List.take_of_length_le (by have := H.1; omega)]

theorem write_block {α : Type} (M : Mem α) (b : Nat) (l xs : List α) (h : M[b]? = some (some l))
    (hx : xs.length = l.length) : M.write (some ⟨b, 0⟩) xs = .ok (M.set b (some xs)) := by
  unfold Mem.write
  split
  · rename_i h0
    subst h0
    simp at hx
    have : l = [] := List.length_eq_zero_iff.mp hx.symm
    subst this
    congr 1
    symm
    apply List.ext_getElem? 
    intro i
    rw [List.getElem?_set]
    split
    · rename_i hi
      subst hi
      obtain ⟨h1, h2⟩ := List.getElem?_eq_some_iff.mp h
      simp [h1, h2]
    · rfl
  · simp [h, hx]

theorem winsJ_colPointers (jb : Option Nat) (m : Nat) (ws : List Win) :
    WinsJ jb (ws.map fun w => List.replicate w.sz m) (colPointers jb 0 ws) := by
  refine ⟨by simp [colPointers_length], ?_⟩
  intro i h h'
  have h2 : i < ws.length := by simpa using h'
  have := colPointers_get jb m ws 0 i h h2
  simpa [Nat.zero_add] using And.intro this.1 this.2.1

/-- the memory step of `endrowsizes()` -/
theorem endrowsizes_alloc {s : St B} {n m nnz : Nat} {ws : List Win} (H : Sizing s n m nnz ws)
    (hsuf : nnz = 0 ∨ (ws.map Win.sz).sum ≤ nnz) :
    ∃ js jb N, endrowsizesAlloc s.o s =
          .ok () { h := { s.h with js := js }, o := { s.o with nnz := N, alloc := N, jarr := jb } } ∧
      (ws.map Win.sz).sum ≤ N ∧
      (match jb with
        | none => N = 0
        | some b => ∃ l, js[b]? = some (some l) ∧ l.length = N) := by
  have htot := totalSize_eq H.rows
  have hr := H.ready
  unfold endrowsizesAlloc
  have hhj := H.hj
  by_cases hz : nnz = 0
  · simp only [hz, if_true] at hhj
    have hnz : s.o.nnz = 0 := by rw [H.hnnz, hz]
    by_cases ht : (ws.map Win.sz).sum = 0
    · refine ⟨s.h.js, none, 0, ?_, by omega, rfl⟩
      simp [hnz, htot, ht, Cmd.bind_def, allocate, setO, allocateIdx, hr]
    · have htp : 0 < (ws.map Win.sz).sum := Nat.pos_of_ne_zero ht
      refine ⟨s.h.js ++ [some (List.replicate (ws.map Win.sz).sum s.h.junk)], some s.h.js.length, _, ?_, le_rfl,
        List.replicate (ws.map Win.sz).sum s.h.junk, by simp, by simp⟩
      simp [hnz, htot, htp, Cmd.bind_def, allocate, setO, allocateIdx, hhj, hr, Mem.alloc]
  · simp only [hz, if_false] at hhj
    obtain ⟨b, l, hb, hl, hll⟩ := hhj
    have hnz : s.o.nnz = nnz := H.hnnz
    have hle : ¬ nnz < (ws.map Win.sz).sum := by omega
    refine ⟨s.h.js, some b, nnz, ?_, by omega, l, hl, hll⟩
    have hal := H.halloc
    simp only [hnz, hz, if_false, htot, hle]
    have : s = { h := { s.h with js := s.h.js }, o := { s.o with nnz := nnz, alloc := nnz, jarr := some b } } := by
      rw [← hb]
      conv_rhs => rw [← hnz, hnz]
      cases s with
      | mk h o =>
        cases o
        simp_all
    rw [← this]
    rfl

/-- `endrowsizes()` from the sizing state succeeds when the announced number of entries is large enough. -/
theorem endrowsizes_sized {s : St B} {n m nnz : Nat} {ws : List Win} (H : Sizing s n m nnz ws)
    (hsuf : nnz = 0 ∨ (ws.map Win.sz).sum ≤ nnz) :
    ∃ s' rest ws', endrowsizes s = .ok () s' ∧
      Sized s' n m (ws.map fun w => List.replicate w.sz m) rest ws' := by
  obtain ⟨js, jb, N, hstep, hN, hjb⟩ := endrowsizes_alloc H hsuf
  have hlen := H.rows.1
  have hrows := H.rows
  have hm := H.hm
  have hfl : (ws.map fun w => List.replicate w.sz m).flatten = List.replicate (ws.map Win.sz).sum m := by
    rw [← flatten_replicate, List.map_map]
    rfl
  have hfin : ∃ js', js.write (jb.map fun b => ⟨b, 0⟩) (List.replicate N m) = .ok js' ∧
      js'.Holds jb (ws.map fun w => List.replicate w.sz m) (List.replicate (N - (ws.map Win.sz).sum) m) := by
    cases jb with
    | none =>
      simp only at hjb
      subst hjb
      refine ⟨js, by simp [Mem.write], ?_⟩
      have : (ws.map Win.sz).sum = 0 := by omega
      exact ⟨by rw [hfl, this]; rfl, by simp⟩
    | some b =>
      obtain ⟨l, h1, h2⟩ := hjb
      refine ⟨_, write_block _ _ l _ h1 (by simp [h2]), ?_⟩
      simp only [Mem.Holds]
      obtain ⟨h3, -⟩ := List.getElem?_eq_some_iff.mp h1
      rw [List.getElem?_set_self h3, hfl, ← List.replicate_add]
      congr 4
      omega
  obtain ⟨js', hw, hH⟩ := hfin
  refine ⟨{ h := { s.h with js := js' }, o := { s.o with nnz := N, alloc := N, jarr := jb, ready := .rowSizesBuilt, rows := s.o.rows.map (colPointers jb 0) } },
    List.replicate (N - (ws.map Win.sz).sum) m, colPointers jb 0 ws, ?_, ?_⟩
  · unfold endrowsizes
    simp only [Cmd.bind_def, Cmd.get_apply, H.mode, H.ready, ne_eq, not_true, if_false]
    rw [hstep]
    simp [setO, hw, hm, H.mode]
  · constructor
    · exact H.mode
    · rfl
    · exact H.hn
    · exact H.hm
    · simp only [hfl, List.length_replicate]; omega
    · simp only [hfl, List.length_replicate]; omega
    · refine ⟨by simp [colPointers_length, hlen], ?_⟩
      simp only [hrows.2]
      split <;> rfl
    · exact winsJ_colPointers jb m ws
    · exact H.ha
    · exact hH

/-- `endrowsizes()` throws when the announced number of entries is too small; the matrix is unchanged. -/
theorem endrowsizes_throw {s : St B} {n m nnz : Nat} {ws : List Win} (H : Sizing s n m nnz ws)
    (hbad : nnz ≠ 0 ∧ nnz < (ws.map Win.sz).sum) : endrowsizes s = .throw .bcrsMatrixError s := by
  have htot := totalSize_eq H.rows
  simp [endrowsizes, endrowsizesAlloc, Cmd.bind_def, H.mode, H.ready, H.hnnz, hbad.1, htot, hbad.2]

/-! ### `addindex` on one segment -/

/-- insertion into an ascending list -/
def insAsc (col : Nat) (cols : List Nat) : List Nat := cols.takeWhile (· < col) ++ col :: cols.dropWhile (· < col)

theorem dropWhile_ge (col : Nat) (cols : List Nat) (h : cols.Pairwise (· < ·)) : ∀ x ∈ cols.dropWhile (· < col), col ≤ x := by
  induction cols with
  | nil => simp
  | cons a t ih =>
    rw [List.pairwise_cons] at h
    by_cases ha : a < col
    · rw [List.dropWhile_cons_of_pos (by simpa using ha)]
      exact ih h.2
    · rw [List.dropWhile_cons_of_neg (by simpa using ha)]
      intro x hx
      rcases List.mem_cons.mp hx with rfl | hx
      · omega
      · have := h.1 x hx; omega

theorem insAsc_asc (col : Nat) (cols : List Nat) (h : cols.Pairwise (· < ·)) (hc : col ∉ cols) :
    (insAsc col cols).Pairwise (· < ·) := by
  unfold insAsc
  have h2 : (cols.takeWhile (· < col) ++ cols.dropWhile (· < col)).Pairwise (· < ·) := by
    rw [List.takeWhile_append_dropWhile]; exact h
  rw [List.pairwise_append] at h2 ⊢
  have hlt : ∀ x ∈ cols.takeWhile (· < col), x < col := by
    intro x hx
    simpa using List.mem_takeWhile_imp hx
  have hgt : ∀ x ∈ cols.dropWhile (· < col), col < x := by
    intro x hx
    have := dropWhile_ge col cols h x hx
    have hm : x ∈ cols := (List.dropWhile_sublist _).subset hx
    rcases Nat.lt_or_ge col x with h | h
    · exact h
    · have : x = col := by omega
      subst this; exact absurd hm hc
  refine ⟨h2.1, List.pairwise_cons.mpr ⟨hgt, h2.2.1⟩, ?_⟩
  intro a ha b hb
  rcases List.mem_cons.mp hb with rfl | hb
  · exact hlt a ha
  · exact h2.2.2 a ha b hb

theorem mem_insAsc (col : Nat) (cols : List Nat) (x : Nat) : x ∈ insAsc col cols ↔ x = col ∨ x ∈ cols := by
  unfold insAsc
  conv_rhs => rw [← List.takeWhile_append_dropWhile (p := fun x => decide (x < col)) (l := cols)]
  simp only [List.mem_append, List.mem_cons]
  tauto

theorem insAsc_length (col : Nat) (cols : List Nat) : (insAsc col cols).length = cols.length + 1 := by
  unfold insAsc
  conv_rhs => rw [← List.takeWhile_append_dropWhile (p := fun x => decide (x < col)) (l := cols)]
  simp only [List.length_append, List.length_cons]
  omega

theorem takeWhile_append_replicate (v m k : Nat) (hv : v ≤ m) (cols : List Nat) :
    (cols ++ List.replicate k m).takeWhile (· < v) = cols.takeWhile (· < v) := by
  induction cols with
  | nil =>
    cases k with
    | zero => rfl
    | succ k => simp [List.replicate_succ, hv]
  | cons a t ih =>
    by_cases ha : a < v
    · simp [ha]
      simpa using ih
    · simp [ha]

theorem takeWhile_all (m : Nat) (cols : List Nat) (h : ∀ x ∈ cols, x < m) : cols.takeWhile (· < m) = cols :=
  List.takeWhile_eq_self_iff.mpr (by simpa using h)

theorem seg_sorted (m k : Nat) (cols : List Nat) (h : cols.Pairwise (· < ·)) (hm : ∀ x ∈ cols, x < m) :
    (cols ++ List.replicate k m).Pairwise (· ≤ ·) := by
  rw [List.pairwise_append]
  refine ⟨h.imp le_of_lt, ?_, ?_⟩
  · rw [List.pairwise_replicate]; right; exact le_rfl
  · intro a ha b hb
    rw [(List.mem_replicate.mp hb).2]
    exact le_of_lt (hm a ha)

/-- what `lower_bound` for the new column finds -/
theorem found_iff (m k col : Nat) (cols : List Nat) (h : cols.Pairwise (· < ·)) (hcol : col < m) :
    idxFound (cols ++ List.replicate k m) (cols ++ List.replicate k m).length (cols.takeWhile (· < col)).length col =
      .ok (decide (col ∈ cols)) := by
  unfold idxFound
  set P := cols.takeWhile (· < col) with hP
  have hsplit : cols = P ++ cols.dropWhile (· < col) := (List.takeWhile_append_dropWhile).symm
  have hPmem : col ∉ P := by
    intro hc
    have := List.mem_takeWhile_imp hc
    simp at this
  have hmem : col ∈ cols ↔ col ∈ cols.dropWhile (· < col) := by
    conv_lhs => rw [hsplit]
    simp [hPmem]
  have hget : (cols ++ List.replicate k m)[P.length]? = (cols.dropWhile (· < col) ++ List.replicate k m)[0]? := by
    conv_lhs => rw [hsplit, List.append_assoc, List.getElem?_append_right (le_refl _)]
    simp
  have hlen : (cols ++ List.replicate k m).length = P.length + (cols.dropWhile (· < col)).length + k := by
    conv_lhs => rw [hsplit]
    simp
    omega
  rw [hget, hlen]
  cases hd : cols.dropWhile (· < col) with
  | nil =>
    rw [hd] at hmem
    have hno : col ∉ cols := by simpa using hmem
    cases k with
    | zero => simp [hno]
    | succ k => simp [hno, List.replicate_succ, Nat.ne_of_gt hcol]
  | cons y ys =>
    have hy : y = col ↔ col ∈ cols := by
      rw [hmem, hd]
      constructor
      · rintro rfl; simp
      · intro hc
        rcases List.mem_cons.mp hc with rfl | hc
        · rfl
        · exfalso
          have h2 := dropWhile_ge col cols h y (by rw [hd]; simp)
          have h3 : (cols.dropWhile (· < col)).Pairwise (· < ·) := h.sublist (List.dropWhile_sublist _)
          rw [hd, List.pairwise_cons] at h3
          have := h3.1 col hc
          omega
    simp [hy]
    omega

/-- the new contents of the segment -/
theorem newseg (m k col : Nat) (cols : List Nat) :
    let xs := cols ++ List.replicate (k + 1) m
    let pos := (cols.takeWhile (· < col)).length
    xs.take pos ++ col :: (xs.take cols.length).drop pos ++ xs.drop (cols.length + 1) =
      insAsc col cols ++ List.replicate k m := by
  intro xs pos
  have hsplit : cols = cols.takeWhile (· < col) ++ cols.dropWhile (· < col) := (List.takeWhile_append_dropWhile).symm
  have hple : pos ≤ cols.length := by
    exact (List.takeWhile_sublist _).length_le
  have h1 : xs.take pos = cols.takeWhile (· < col) := by
    simp only [xs]
    rw [List.take_append_of_le_length hple]
    conv_lhs => rw [hsplit]
    simp only [pos]
    exact List.take_left
  have h2 : (xs.take cols.length).drop pos = cols.dropWhile (· < col) := by
    simp only [xs]
    rw [List.take_left]
    conv_lhs => rw [hsplit]
    simp only [pos]
    exact List.drop_left
  have h3 : xs.drop (cols.length + 1) = List.replicate k m := by
    simp only [xs]
    rw [← List.drop_drop, List.drop_left, List.drop_replicate]
    rfl
  rw [h1, h2, h3]
  simp [insAsc]

theorem addindex_ge {s : St B} {n m : Nat} {segs : List (List Nat)} {rest : List Nat} {ws : List Win}
    (H : Sized s n m segs rest ws) (i col : Nat) (hc : m ≤ col) : addindex i col s = .throw .bcrsMatrixError s := by
  simp [addindex, Cmd.bind_def, H.mode, H.ready, H.hm, hc]

/-- `addindex` in the `rowSizesBuilt` stage. -/
theorem addindex_sized {s : St B} {n m : Nat} {segs : List (List Nat)} {rest : List Nat} {ws : List Win}
    (H : Sized s n m segs rest ws) {i : Nat} (hi : i < segs.length) (col : Nat) (hcm : col < m) (cols : List Nat) (k : Nat)
    (hseg : segs[i] = cols ++ List.replicate k m) (hasc : cols.Pairwise (· < ·)) (hlt : ∀ x ∈ cols, x < m) :
    (col ∈ cols → addindex i col s = .ok () s) ∧
    (col ∉ cols → k = 0 → addindex i col s = .throw .bcrsMatrixError s) ∧
    (col ∉ cols → ∀ k', k = k' + 1 → ∃ s', addindex i col s = .ok () s' ∧ s'.o = s.o ∧ s'.h.as = s.h.as ∧
      Sized s' n m (segs.set i (insAsc col cols ++ List.replicate k' m)) rest ws) := by
  have hiw : i < ws.length := by rw [H.wins.1]; exact hi
  have hw := H.wins.2 i hiw hi
  have hread := H.holds.read hi hw.2
  have hsz : ws[i].sz = (cols ++ List.replicate k m).length := by rw [hw.1, hseg]
  rw [← hw.1, hseg, hsz] at hread
  have hsorted := seg_sorted m k cols hasc hlt
  have hlb : lowerBound (cols ++ List.replicate k m) (cols ++ List.replicate k m).length col =
      .ok (cols.takeWhile (· < col)).length := by
    rw [lowerBound_eq _ _ hsorted, takeWhile_append_replicate _ _ _ hcm.le]
  have hf := found_iff m k col cols hasc hcm
  have hple : (cols.takeWhile (· < col)).length ≤ cols.length := (List.takeWhile_sublist _).length_le
  have hlb2 : lowerBoundGo (cols ++ List.replicate k m) m (cols.takeWhile (· < col)).length
      ((cols ++ List.replicate k m).length - (cols.takeWhile (· < col)).length) = .ok cols.length := by
    rw [lowerBoundGo_eq _ _ hsorted _ (by simp; omega), takeWhile_append_replicate _ _ _ le_rfl, takeWhile_all m cols hlt]
    intro q hq hqp
    have h1 := (sorted_takeWhile _ col hsorted).1 q hq (by rw [takeWhile_append_replicate _ _ _ hcm.le]; exact hqp)
    omega
  have hrow := row_ok H.rows hiw
  have hbase : ∀ (Q : Out (St B) Unit), addindex i col s = Q ↔
      (if decide (col ∈ cols) = true then (pure () : BC B Unit) else if cols.length = (cols ++ List.replicate k m).length
        then Cmd.raise .bcrsMatrixError
        else do
          let js ← Cmd.lift (s.h.js.write ws[i].j ((cols ++ List.replicate k m).take (cols.takeWhile (· < col)).length ++
            col :: ((cols ++ List.replicate k m).take cols.length).drop (cols.takeWhile (· < col)).length ++
            (cols ++ List.replicate k m).drop (cols.length + 1)))
          Cmd.modify fun s => { s with h := { s.h with js := js } }) s = Q := by
    intro Q
    unfold addindex
    rw [Cmd.bind_ok (Cmd.get_apply s)]
    simp only [H.mode, H.ready, H.hm, ne_eq, not_true, if_false, not_le.mpr hcm, reduceCtorEq]
    rw [Cmd.bind_ok hrow, hsz, hread, Cmd.bind_ok (Cmd.lift_ok _ s), hlb, Cmd.bind_ok (Cmd.lift_ok _ s), hf,
      Cmd.bind_ok (Cmd.lift_ok _ s), hlb2]
    by_cases hmem : col ∈ cols
    · simp [hmem]
    · simp only [hmem, decide_false, Bool.false_eq_true, if_false]
      rw [Cmd.bind_ok (Cmd.lift_ok _ s)]
  refine ⟨?_, ?_, ?_⟩
  · intro h
    rw [hbase]
    simp [h]
  · intro h hk
    rw [hbase]
    subst hk
    simp [h]
  · rintro h k' rfl
    have hns := newseg m k' col cols
    simp only at hns
    obtain ⟨js', hwr, hH', hl', -⟩ := H.holds.write hi hw.2 (xs := insAsc col cols ++ List.replicate k' m)
      (by rw [hseg]; simp [insAsc_length]; omega)
    refine ⟨{ s with h := { s.h with js := js' } }, ?_, rfl, rfl, ?_⟩
    · rw [hbase, hns]
      simp [h, Cmd.bind_def, hwr]
    · have hlen2 : (insAsc col cols ++ List.replicate k' m).length = segs[i].length := by
        rw [hseg]; simp [insAsc_length]; omega
      have hfl : (segs.set i (insAsc col cols ++ List.replicate k' m)).flatten.length = segs.flatten.length := by
        rw [Mem.flatten_set _ _ hi, Mem.flatten_split segs i hi]
        simp only [List.length_append, hlen2] at hlen2 ⊢
      constructor
      · exact H.mode
      · exact H.ready
      · exact H.hn
      · exact H.hm
      · rw [hfl]; exact H.hnnz
      · rw [hfl]; exact H.halloc
      · exact H.rows
      · refine ⟨by rw [List.length_set]; exact H.wins.1, ?_⟩
        intro q hq hq'
        rw [List.length_set] at hq'
        have h0 := H.wins.2 q hq hq'
        rw [Mem.segOff_set _ _ _ _ hi hlen2, List.getElem_set]
        split
        · rename_i hiq
          subst hiq
          rw [hlen2]
          exact h0
        · exact h0
      · exact H.ha
      · exact hH'

/-! ### Reading back -/

theorem rowsView_ok (h : Heap B) (ws : List Win) (cs : List (List Nat)) (vs : List (List B)) (hc : cs.length = ws.length)
    (hv : vs.length = ws.length)
    (hj : ∀ i (h1 : i < ws.length) (h2 : i < cs.length), h.js.read ws[i].j ws[i].sz = .ok cs[i])
    (ha : ∀ i (h1 : i < ws.length) (h2 : i < vs.length), h.as.read ws[i].p ws[i].sz = .ok vs[i]) :
    rowsView h ws = .ok (List.zipWith List.zip cs vs) := by
  induction ws generalizing cs vs with
  | nil =>
    simp at hc hv
    simp [rowsView, hc]
  | cons w ws ih =>
    cases cs with
    | nil => simp at hc
    | cons c cs =>
      cases vs with
      | nil => simp at hv
      | cons v vs =>
        have h0 := hj 0 (by simp) (by simp)
        have h1 := ha 0 (by simp) (by simp)
        simp only [List.getElem_cons_zero] at h0 h1
        have := ih cs vs (by simpa using hc) (by simpa using hv)
          (fun i h1 h2 => hj (i + 1) (Nat.succ_lt_succ h1) (Nat.succ_lt_succ h2))
          (fun i h1 h2 => ha (i + 1) (Nat.succ_lt_succ h1) (Nat.succ_lt_succ h2))
        simp [rowsView, winRow, h0, h1, this]

theorem truncRows_ok (js : Mem Nat) (m : Nat) (ws : List Win) (segs : List (List Nat)) (nnz : Nat)
    (hl : segs.length = ws.length)
    (hr : ∀ i (h1 : i < ws.length) (h2 : i < segs.length), js.read ws[i].j ws[i].sz = .ok segs[i]) :
    truncRows js m ws nnz = .ok (List.zipWith (fun w seg => { w with sz := (seg.takeWhile (· < m)).length }) ws segs,
      nnz - (List.zipWith (fun w seg => w.sz - (seg.takeWhile (· < m)).length) ws segs).sum) := by
  induction ws generalizing segs nnz with
  | nil => simp at hl; simp [truncRows]
  | cons w ws ih =>
    cases segs with
    | nil => simp at hl
    | cons sg segs =>
      have h0 := hr 0 (by simp) (by simp)
      simp only [List.getElem_cons_zero] at h0
      have := ih segs (nnz - (w.sz - (sg.takeWhile (· < m)).length)) (by simpa using hl)
        (fun i h1 h2 => hr (i + 1) (Nat.succ_lt_succ h1) (Nat.succ_lt_succ h2))
      simp only [truncRows, h0, Res.ok_bind, this, List.zipWith_cons_cons, List.sum_cons]
      congr 2
      omega

theorem dataPointers_length (ab : Option Nat) (off : Nat) (ws : List Win) :
    (dataPointers ab off ws).length = ws.length := by
  induction ws generalizing off with
  | nil => rfl
  | cons w ws ih => simp [dataPointers, ih]

theorem dataPointers_get {α : Type} (ab : Option Nat) (ws : List Win) (vs : List (List α)) (off i : Nat)
    (h : i < (dataPointers ab off ws).length) (h' : i < ws.length) (hl : vs.length = ws.length)
    (hsz : ∀ k (h1 : k < ws.length) (h2 : k < vs.length), vs[k].length = ws[k].sz) :
    (dataPointers ab off ws)[i].sz = ws[i].sz ∧
    (0 < ws[i].sz → (dataPointers ab off ws)[i].p = ab.map fun b => ⟨b, off + Mem.segOff vs i⟩) ∧
    (0 < ws[i].sz → (dataPointers ab off ws)[i].j = ws[i].j) := by
  induction ws generalizing off i vs with
  | nil => simp at h'
  | cons w ws ih =>
    cases vs with
    | nil => simp at hl
    | cons v vs =>
      have hv0 := hsz 0 (by simp) (by simp)
      simp only [List.getElem_cons_zero] at hv0
      cases i with
      | zero =>
        by_cases hw : 0 < w.sz
        · simp [dataPointers, hw, Mem.segOff]
        · have : w.sz = 0 := by omega
          simp [dataPointers, this]
      | succ i =>
        have := ih vs (off + w.sz) i (by simpa [dataPointers] using h) (by simpa using h') (by simpa using hl)
          (fun k h1 h2 => hsz (k + 1) (Nat.succ_lt_succ h1) (Nat.succ_lt_succ h2))
        simp only [dataPointers, List.getElem_cons_succ, segOff_cons, hv0]
        refine ⟨this.1, ?_, this.2.2⟩
        intro hp
        rw [this.2.1 hp]
        simp [Nat.add_assoc]

theorem Mem.read_zero {α : Type} (M : Mem α) (p : Option Ptr) : M.read p 0 = .ok [] := by simp [Mem.read]

/-- A shorter read at the same place. -/
theorem Mem.read_take {α : Type} (M : Mem α) (p : Option Ptr) (k : Nat) (l : List α) (h : M.read p k = .ok l) (q : Nat)
    (hq : q ≤ k) : M.read p q = .ok (l.take q) := by
  unfold Mem.read at h ⊢
  by_cases hk : k = 0
  · have : q = 0 := by omega
    simp [this]
  · by_cases hq0 : q = 0
    · simp [hq0]
    · simp only [hk, if_false] at h
      simp only [hq0, if_false]
      cases p with
      | none => simp at h
      | some p =>
        simp only at h ⊢
        cases hm : M[p.blk]? with
        | none => simp [hm] at h
        | some o =>
          cases o with
          | none => simp [hm] at h
          | some b =>
            simp only [hm] at h ⊢
            by_cases hle : p.off + k ≤ b.length
            · simp only [hle, if_true, Res.ok.injEq] at h
              have : p.off + q ≤ b.length := by omega
              simp only [this, if_true]
              rw [← h, List.take_take, min_eq_left hq]
            · simp [hle] at h

/-- `endindices()`: every row keeps its valid indices; fresh values. -/
theorem endindices_tail {s : St B} {n m : Nat} {segs : List (List Nat)} {rest : List Nat} {ws : List Win}
    (H : Sized s n m segs rest ws) (cols : List (List Nat)) (tl : Nat → List Nat) (htl : ∀ i, (tl i).takeWhile (· < m) = []) (hlen : cols.length = segs.length)
    (hseg : ∀ i (h : i < segs.length) (h2 : i < cols.length), segs[i] = cols[i] ++ tl i)
    (hlt : ∀ c ∈ cols, ∀ x ∈ c, x < m) :
    ∃ s' ws', endindices s = .ok () s' ∧ s'.o.ready = .built ∧ s'.o.n = n ∧ s'.o.m = m ∧ RowsAre s'.o ws' ∧
      s'.o.alloc = s.o.alloc ∧ s'.o.jarr = s.o.jarr ∧ s'.h.js = s.h.js ∧
      s'.o.nnz = cols.flatten.length + rest.length ∧
      ws'.length = cols.length ∧
      (∀ i (h1 : i < ws'.length) (h2 : i < cols.length) (h3 : i < segs.length), ws'[i].sz = cols[i].length ∧
        s'.h.js.read ws'[i].j ws'[i].sz = .ok cols[i] ∧
        (0 < cols[i].length → ws'[i].j = s.o.jarr.map fun b => ⟨b, Mem.segOff segs i⟩) ∧
        (0 < cols[i].length → ws'[i].p = s'.o.a.map fun b => ⟨b, Mem.segOff (cols.map fun c => c.map fun _ => s.h.dflt) i⟩)) ∧
      (∃ rest', s'.h.as.Holds s'.o.a (cols.map fun c => c.map fun _ => s.h.dflt) rest') ∧
      (∀ b, s'.o.a = some b → s.h.as.length ≤ b) ∧ (∃ M, s'.h.as = s.h.as ++ M) ∧ (s'.o.a = none → s.o.alloc = 0) := by
  have hreads : ∀ i (h1 : i < ws.length) (h2 : i < segs.length), s.h.js.read ws[i].j ws[i].sz = .ok segs[i] := by
    intro i h1 h2
    have hw := H.wins.2 i h1 h2
    rw [hw.1]
    exact H.holds.read h2 hw.2
  have hnn := H.rows.getD
  have htr := truncRows_ok s.h.js m ws segs s.o.nnz H.wins.1.symm hreads
  have htw : ∀ i (h : i < segs.length) (h2 : i < cols.length), segs[i].takeWhile (· < m) = cols[i] := by
    intro i h h2
    rw [hseg i h h2, List.takeWhile_append_of_pos (by simpa using hlt _ (List.getElem_mem h2)), htl, List.append_nil]
  set tw := List.zipWith (fun (w : Win) (seg : List Nat) => { w with sz := (seg.takeWhile (· < m)).length }) ws segs
    with htwdef
  have htwlen : tw.length = cols.length := by simp [tw, H.wins.1, hlen]
  have htwget : ∀ i (h : i < tw.length) (h1 : i < ws.length) (h2 : i < cols.length),
      tw[i].sz = cols[i].length ∧ tw[i].j = ws[i].j := by
    intro i h h1 h2
    simp only [tw, List.getElem_zipWith]
    rw [htw i (by omega) h2]
    simp
  have hcut : (List.zipWith (fun (w : Win) (seg : List Nat) => w.sz - (seg.takeWhile (· < m)).length) ws segs).sum +
      cols.flatten.length = segs.flatten.length := by
    have e1 : List.zipWith (fun (w : Win) (seg : List Nat) => w.sz - (seg.takeWhile (· < m)).length) ws segs =
        List.zipWith (fun seg c => seg.length - c.length) segs cols := by
      apply List.ext_getElem
      · simp [H.wins.1, hlen]
      · intro i h1 h2
        simp only [List.length_zipWith] at h1 h2
        simp only [List.getElem_zipWith]
        rw [htw i (by omega) (by omega), (H.wins.2 i (by omega) (by omega)).1]
    rw [e1]
    clear * - hlen hseg
    induction segs generalizing cols tl with
    | nil => cases cols with
      | nil => rfl
      | cons c cs => simp at hlen
    | cons sg segs ih =>
      cases cols with
      | nil => simp at hlen
      | cons c cs =>
        have h0 := hseg 0 (by simp) (by simp)
        simp only [List.getElem_cons_zero] at h0
        have := ih cs (fun i => tl (i + 1)) (by simpa using hlen)
          (fun i h1 h2 => hseg (i + 1) (Nat.succ_lt_succ h1) (Nat.succ_lt_succ h2))
        simp only [List.zipWith_cons_cons, List.sum_cons, List.flatten_cons, List.length_append, h0]
        omega
  set vs := cols.map fun c => c.map fun _ => s.h.dflt with hvs
  have hvslen : vs.length = tw.length := by simp [vs, htwlen]
  have hvsz : ∀ k (h1 : k < tw.length) (h2 : k < vs.length), vs[k].length = tw[k].sz := by
    intro k h1 h2
    have : k < ws.length := by rw [H.wins.1]; omega
    rw [(htwget k h1 this (by omega)).1]
    simp [vs]
  have hvfl : vs.flatten = List.replicate cols.flatten.length s.h.dflt := by
    have : vs = (cols.map List.length).map fun k => List.replicate k s.h.dflt := by
      rw [List.map_map]
      apply List.map_congr_left
      intro c _
      simp
    rw [this]
    have := flatten_replicate' (cols.map List.length) s.h.dflt
    rw [this, List.length_flatten]
  -- data allocation
  have hdata : ∃ (as : Mem B) (ab : Option Nat) (rest' : List B),
      (allocateData ({ s with o := { s.o with rows := s.o.rows.map fun _ => tw, nnz := s.o.nnz -
        (List.zipWith (fun (w : Win) (seg : List Nat) => w.sz - (seg.takeWhile (· < m)).length) ws segs).sum } } : St B)) =
        .ok () { h := { s.h with as := as }, o := { s.o with a := ab, rows := s.o.rows.map fun _ => tw, nnz := s.o.nnz -
          (List.zipWith (fun (w : Win) (seg : List Nat) => w.sz - (seg.takeWhile (· < m)).length) ws segs).sum } } ∧
      as.Holds ab vs rest' ∧ (∀ b, ab = some b → s.h.as.length ≤ b) ∧ (∃ M, as = s.h.as ++ M) ∧ (ab = none → s.o.alloc = 0) := by
    by_cases hz : 0 < s.o.alloc
    · refine ⟨_, _, List.replicate (s.o.alloc - cols.flatten.length) s.h.dflt,
        by simp only [allocateData, H.ha, hz, Mem.alloc]; rfl, ?_, ?_, ⟨_, rfl⟩, by simp⟩
      · simp only [Mem.Holds]
        rw [hvfl, ← List.replicate_add]
        have := H.halloc
        have : cols.flatten.length + (s.o.alloc - cols.flatten.length) = s.o.alloc := by omega
        rw [this]
        simp
      · intro b hb; simp at hb; omega
    · refine ⟨s.h.as, none, [], by simp [allocateData, H.ha, hz], ?_, by simp, ⟨[], by simp⟩, fun _ => by omega⟩
      refine ⟨?_, rfl⟩
      rw [hvfl]
      have := H.halloc
      have : cols.flatten.length = 0 := by omega
      rw [this]; rfl
  obtain ⟨as, ab, rest', hal, hHold, hfresh, hext⟩ := hdata
  refine ⟨{ h := { s.h with as := as }, o := { s.o with
      a := ab, nnz := s.o.nnz - (List.zipWith (fun (w : Win) (seg : List Nat) => w.sz - (seg.takeWhile (· < m)).length) ws segs).sum,
      ready := .built, rows := (s.o.rows.map fun _ => tw).map (dataPointers ab 0) } }, dataPointers ab 0 tw, ?_, rfl, H.hn, H.hm, ?_,
      rfl, rfl, rfl, ?_, ?_, ?_, ⟨rest', hHold⟩, hfresh, hext⟩
  · unfold endindices
    rw [Cmd.bind_ok (Cmd.get_apply s)]
    simp only [H.mode, H.ready, H.hm, ne_eq, not_true, if_false, reduceCtorEq]
    rw [hnn, htr, Cmd.bind_ok (Cmd.lift_ok _ s)]
    simp only [Cmd.bind_def, setO, Cmd.modify_apply]
    have hmode := H.mode
    have hm := H.hm
    simp only [hal]
    rw [hmode, hm]
  · refine ⟨?_, ?_⟩
    · simp only [dataPointers_length, htwlen, hlen]
      rw [← H.wins.1]; exact H.rows.1
    · simp only [H.rows.2]
      split <;> rfl
  · simp only
    rw [H.hnnz]
    omega
  · simp [dataPointers_length, htwlen]
  · intro i h1 h2 h3
    have hit : i < tw.length := by omega
    have hiw : i < ws.length := by rw [H.wins.1]; exact h3
    have hd := dataPointers_get ab tw vs 0 i h1 hit hvslen hvsz
    have ht := htwget i hit hiw h2
    have hw := H.wins.2 i hiw h3
    refine ⟨by rw [hd.1, ht.1], ?_, ?_, ?_⟩
    · rw [hd.1, ht.1]
      by_cases h0 : 0 < cols[i].length
      · rw [hd.2.2 (by rw [ht.1]; exact h0), ht.2]
        have := Mem.read_take _ _ _ _ (hreads i hiw h3) cols[i].length (by rw [hw.1, hseg i h3 h2]; simp)
        rw [this, hseg i h3 h2, List.take_left]
      · have : cols[i].length = 0 := by omega
        rw [this, List.length_eq_zero_iff.mp this, Mem.read_zero]
    · intro h0
      rw [hd.2.2 (by rw [ht.1]; exact h0), ht.2]
      exact hw.2 (by rw [hseg i h3 h2]; simp; omega)
    · intro h0
      rw [hd.2.1 (by rw [ht.1]; exact h0)]
      simp

theorem replicate_takeWhile (k m : Nat) : (List.replicate k m).takeWhile (· < m) = [] := by cases k <;> simp [List.replicate_succ]

/-- `setIndicesNoSort` with as many columns as announced. -/
theorem setIndicesNoSort_sized {s : St B} {n m : Nat} {segs : List (List Nat)} {rest : List Nat} {ws : List Win}
    (H : Sized s n m segs rest ws) {i : Nat} (hi : i < segs.length) (cols : List Nat) (hlen2 : cols.length = segs[i].length) :
    ∃ s', setIndicesNoSort i cols s = .ok () s' ∧ s'.o = s.o ∧ s'.h.as = s.h.as ∧ s'.h.dflt = s.h.dflt ∧
      Sized s' n m (segs.set i cols) rest ws := by
  have hiw : i < ws.length := by rw [H.wins.1]; exact hi
  have hw := H.wins.2 i hiw hi
  obtain ⟨js', hwr, hH', hl', -⟩ := H.holds.write hi hw.2 (xs := cols) hlen2
  refine ⟨{ s with h := { s.h with js := js' } }, ?_, rfl, rfl, rfl, ?_⟩
  · unfold setIndicesNoSort
    rw [Cmd.bind_ok (row_ok H.rows hiw)]
    simp [Cmd.bind_def, hwr, hlen2, hw.1]
  · have hfl : (segs.set i cols).flatten.length = segs.flatten.length := by
      rw [Mem.flatten_set _ _ hi, Mem.flatten_split segs i hi]
      simp only [List.length_append, hlen2]
    constructor
    · exact H.mode
    · exact H.ready
    · exact H.hn
    · exact H.hm
    · rw [hfl]; exact H.hnnz
    · rw [hfl]; exact H.halloc
    · exact H.rows
    · refine ⟨by rw [List.length_set]; exact H.wins.1, ?_⟩
      intro q hq hq'
      rw [List.length_set] at hq'
      have h0 := H.wins.2 q hq hq'
      rw [Mem.segOff_set _ _ _ _ hi hlen2, List.getElem_set]
      split
      · rename_i hiq
        subst hiq
        rw [hlen2]
        exact h0
      · exact h0
    · exact H.ha
    · exact hH'

end Bcrs
end Istl
