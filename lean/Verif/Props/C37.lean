import Verif.Model.Btd
import Verif.Spec.Btd
import Verif.Props.C02
import Verif.Props.C20

/-! # C37 — block tridiagonal and block diagonal matrices -/

namespace Istl
open Bcrs Btd

section Construction
variable {B : Type}

theorem runAddsStrict_total {s : St B} {n m : Nat} {cap : Nat → Nat} {S : Nat → Finset Nat} (H : Pat s n m cap S)
    (T : Nat → Finset Nat) (hST : ∀ i, S i ⊆ T i) (hcap : ∀ i < n, (T i).card ≤ cap i) (hm : ∀ i < n, ∀ j ∈ T i, j < m)
    (calls : List (Nat × Nat)) (hc : ∀ c ∈ calls, c.1 < n ∧ c.2 ∈ T c.1) :
    ∃ s', runAddsStrict calls s = .ok () s' := by
  induction calls generalizing s S with
  | nil => exact ⟨s, rfl⟩
  | cons c cs ih =>
    obtain ⟨hcn, hcT⟩ := hc c (by simp)
    obtain ⟨-, -, h3⟩ := addindex_pat H hcn c.2
    have hacc : Accept m cap S c.1 c.2 := by
      refine ⟨hm _ hcn _ hcT, ?_⟩
      by_cases h : c.2 ∈ S c.1
      · exact .inl h
      · right
        have : (insert c.2 (S c.1)).card ≤ (T c.1).card := by
          apply Finset.card_le_card
          intro x hx
          rcases Finset.mem_insert.mp hx with rfl | hx
          · exact hcT
          · exact hST _ hx
        rw [Finset.card_insert_of_notMem h] at this
        have := hcap _ hcn
        omega
    obtain ⟨s', h1, -, -, H'⟩ := h3 hacc
    obtain ⟨s'', h2⟩ := ih H' (by
      intro i x hx
      rw [Function.update_apply] at hx
      split at hx
      · next h =>
        subst h
        rcases Finset.mem_insert.mp hx with rfl | hx
        · exact hcT
        · exact hST _ hx
      · exact hST _ hx) (fun c' h => hc c' (by simp [h]))
    refine ⟨s'', ?_⟩
    simp only [runAddsStrict]
    rw [Cmd.bind_ok h1, h2]

/-- A random-mode program whose calls fit into the announced sizes never throws. -/
theorem randomProgramStrict_total (h : Heap B) (o : Obj B) (n m : Nat) (sizes : List SizeOp) (calls : List (Nat × Nat))
    (hs : ∀ op ∈ sizes, op.row < n) (T : Nat → Finset Nat) (hcap : ∀ i < n, (T i).card ≤ announced sizes i)
    (hm : ∀ i < n, ∀ j ∈ T i, j < m) (hc : ∀ c ∈ calls, c.1 < n ∧ c.2 ∈ T c.1) :
    ∃ s, randomProgramStrict n m 0 sizes calls ⟨h, o⟩ = .ok () s := by
  obtain ⟨s1, h1, H1⟩ := ctor_sizing h o n m 0
  obtain ⟨s2, ws, h2, H2, hsz⟩ := runSizes_sizing H1 (by simp) sizes hs
  obtain ⟨s3, h3, H3⟩ := endrowsizes_pat H2 (announced sizes) hsz (.inl rfl)
  obtain ⟨s4, h4⟩ := runAddsStrict_total H3 T (by simp) hcap hm calls hc
  obtain ⟨-, S', H4, -⟩ := runAddsStrict_ok H3 calls (fun c h => (hc c h).1) s4 h4
  obtain ⟨s5, rows, h5, -⟩ := endindices_pat H4
  refine ⟨s5, ?_⟩
  unfold randomProgramStrict
  rw [Cmd.bind_ok h1, Cmd.bind_ok h2, Cmd.bind_ok h3, Cmd.bind_ok h4, h5]

theorem announced_map_set (f : Nat → Nat) (n i : Nat) :
    announced ((List.range n).map fun i => SizeOp.set i (f i)) i = if i < n then f i else 0 := by
  induction n with
  | zero => simp [announced]
  | succ n ih =>
    rw [List.range_succ, List.map_append, List.map_singleton, announced_append]
    simp only [Function.update_apply, ih]
    by_cases h : i = n
    · subst h; simp
    · have : i < n + 1 ↔ i < n := by omega
      simp [h, this]

/-- the built matrix as seen by iterators -/
def spOf (n m : Nat) (rows : List (Row B)) : SpMat B := { n := n, m := m, row := fun i => rows.getD i [] }

/-- columns of row `i` of the tridiagonal pattern -/
def triCols (n i : Nat) : Finset Nat :=
  (if 0 < i then {i - 1} else ∅) ∪ {i} ∪ (if i < n - 1 then {i + 1} else ∅)

theorem mem_triCols (n i j : Nat) (hi : i < n) : j ∈ triCols n i ↔ j < n ∧ (j + 1 = i ∨ j = i ∨ j = i + 1) := by
  unfold triCols
  by_cases h1 : 0 < i <;> by_cases h2 : i < n - 1 <;> simp [h1, h2] <;> omega

theorem mem_calls (n i j : Nat) : (i, j) ∈ calls n ↔ i < n ∧ j ∈ triCols n i := by
  unfold calls triCols
  simp only [List.mem_flatMap, List.mem_range]
  constructor
  · rintro ⟨k, hk, hx⟩
    have e : i = k := by
      by_cases h1 : 0 < k <;> by_cases h2 : k < n - 1 <;> simp [h1, h2] at hx <;> omega
    subst e
    refine ⟨hk, ?_⟩
    by_cases h1 : 0 < i <;> by_cases h2 : i < n - 1 <;> simp [h1, h2] at hx ⊢ <;> tauto
  · rintro ⟨hi, hx⟩
    refine ⟨i, hi, ?_⟩
    by_cases h1 : 0 < i <;> by_cases h2 : i < n - 1 <;> simp [h1, h2] at hx ⊢ <;> tauto

theorem card_triCols (n i : Nat) (hi : i < n) :
    (triCols n i).card ≤ 3 - (if i = 0 then 1 else 0) - (if i = n - 1 then 1 else 0) := by
  unfold triCols
  refine le_trans (Finset.card_union_le _ _) (le_trans (Nat.add_le_add_right (Finset.card_union_le _ _) _) ?_)
  by_cases h1 : 0 < i <;> by_cases h2 : i < n - 1 <;> simp [h1, h2] <;> (repeat' split) <;> omega

/-- `BTDMatrix(n)` succeeds for every `n`, in every memory, and its pattern is exactly the tridiagonal one. -/
theorem C37_tridiagonal_pattern (h : Heap B) (o : Obj B) (n : Nat) :
    ∃ s rows, btdCtor n ⟨h, o⟩ = .ok () s ∧ s.o.ready = .built ∧ view s = .ok (n, n, rows) ∧ rows.length = n ∧
      TriPattern (spOf n n rows) := by
  have hs : ∀ op ∈ sizes n, op.row < n := by
    intro op hop
    simp only [sizes, List.mem_map, List.mem_range] at hop
    obtain ⟨i, hi, rfl⟩ := hop
    exact hi
  have hc : ∀ c ∈ calls n, c.1 < n ∧ c.2 ∈ triCols n c.1 := fun c hc => (mem_calls n c.1 c.2).mp hc
  obtain ⟨s, hrun⟩ := randomProgramStrict_total h o n n (sizes n) (calls n) hs (triCols n)
    (by
      intro i hi
      unfold sizes
      rw [announced_map_set, if_pos hi]
      exact card_triCols n i hi)
    (fun i hi j hj => ((mem_triCols n i j hi).mp hj).1) hc
  obtain ⟨hb, rows, hv, hl, hr⟩ := C02_random_build_pattern h o n n 0 (sizes n) (calls n) hs (fun c h => (hc c h).1) s hrun
  refine ⟨s, rows, hrun, hb, hv, hl, rfl, ?_⟩
  intro i hi
  have hi' : i < rows.length := by rw [hl]; exact hi
  have e : (spOf n n rows).row i = rows[i] := by simp [spOf, hi']
  rw [e]
  refine ⟨(hr i hi').1, fun j => ?_⟩
  rw [(hr i hi').2 j, mem_calls, mem_triCols n i j hi]
  exact ⟨fun h => h.2, fun h => ⟨hi, h⟩⟩

/-- `BDMatrix(n)` succeeds for every `n`, and its pattern is exactly the diagonal. -/
theorem C37_diagonal_pattern (h : Heap B) (o : Obj B) (n : Nat) :
    ∃ s rows, bdCtor n ⟨h, o⟩ = .ok () s ∧ s.o.ready = .built ∧ view s = .ok (n, n, rows) ∧ rows.length = n ∧
      DiagPattern (spOf n n rows) := by
  have hs : ∀ op ∈ (List.range n).map fun i => SizeOp.set i 1, op.row < n := by
    intro op hop
    simp only [List.mem_map, List.mem_range] at hop
    obtain ⟨i, hi, rfl⟩ := hop
    exact hi
  have hm : ∀ i j, (i, j) ∈ ((List.range n).map fun i => (i, i)) ↔ i < n ∧ j = i := by
    intro i j
    simp only [List.mem_map, List.mem_range, Prod.mk.injEq]
    constructor
    · rintro ⟨k, hk, rfl, rfl⟩; exact ⟨hk, rfl⟩
    · rintro ⟨hi, rfl⟩; exact ⟨_, hi, rfl, rfl⟩
  have hc : ∀ c ∈ (List.range n).map fun i => (i, i), c.1 < n ∧ c.2 ∈ ({c.1} : Finset Nat) := by
    intro c hc
    have := (hm c.1 c.2).mp hc
    exact ⟨this.1, by simp [this.2]⟩
  obtain ⟨s, hrun⟩ := randomProgramStrict_total h o n n ((List.range n).map fun i => SizeOp.set i 1)
    ((List.range n).map fun i => (i, i)) hs (fun i => {i})
    (by intro i hi; rw [announced_map_set (fun _ => 1), if_pos hi]; simp)
    (by intro i hi j hj; rw [Finset.mem_singleton] at hj; omega) hc
  obtain ⟨hb, rows, hv, hl, hr⟩ := C02_random_build_pattern h o n n 0 _ _ hs (fun c h => (hc c h).1) s hrun
  refine ⟨s, rows, hrun, hb, hv, hl, rfl, ?_⟩
  intro i hi
  have hi' : i < rows.length := by rw [hl]; exact hi
  have e : (spOf n n rows).row i = rows[i] := by simp [spOf, hi']
  rw [e]
  refine ⟨(hr i hi').1, fun j => ?_⟩
  rw [(hr i hi').2 j, hm]
  exact ⟨fun h => h.2, fun h => ⟨hi, h⟩⟩

/-- A matrix whose memory is in the state left by a finished construction in random mode. -/
structure Reusable (s : St B) : Prop where
  mode : s.o.mode = .random
  mem : (s.o.alloc = 0 ∧ s.o.n = 0 ∧ s.o.rows = none ∧ s.o.jarr = none ∧ s.o.a = none) ∨
    (0 < s.o.alloc ∧ 0 < s.o.n ∧ ∃ b l, s.o.a = some b ∧ s.h.as[b]? = some (some l))

theorem setSize_sizing {s : St B} (H : Reusable s) (n m nnz : Nat) :
    ∃ s', setSize n m nnz s = .ok () s' ∧ Sizing s' n m nnz (List.replicate n ⟨0, none, none⟩) := by
  have hm := H.mode
  rcases H.mem with ⟨h1, h2, h3, h4, h5⟩ | ⟨h1, h2, b, l, h3, h4⟩
  · by_cases hn : n = 0 <;> by_cases hz : nnz = 0
    all_goals
      simp [setSize, deallocate, allocate, setO, Cmd.bind_def, allocateRows, allocateIdx, Mem.alloc, Cmd.get, hn, hz, Nat.pos_of_ne_zero, h1, h2, h3, h4, hm]
      constructor <;> simp [RowsAre, hn, hz, hm, h5]
  · have hf : s.h.as.free (some ⟨b, 0⟩) = .ok (s.h.as.set b none) := by simp [Mem.free, h4]
    by_cases hn : n = 0 <;> by_cases hz : nnz = 0
    all_goals
      simp [setSize, deallocate, allocate, setO, Cmd.bind_def, allocateRows, allocateIdx, Mem.alloc, Cmd.get, hn, hz, Nat.pos_of_ne_zero, h1, h2, h3, hf, hm]
      constructor <;> simp [RowsAre, hn, hz, hm]

theorem endindices_reusable {s s' : St B} {n m : Nat} {cap : Nat → Nat} {S : Nat → Finset Nat} (H : Pat s n m cap S) (hn : 0 < n)
    (hpos : 0 < cap 0) (h : endindices s = .ok () s') : Reusable s' := by
  obtain ⟨segs, rest, ws, H1, hlen, hS⟩ := H
  set cols := (List.range n).map fun i => (S i).sort with hcols
  have hcl : cols.length = n := by simp [cols]
  have hcg : ∀ i (h : i < cols.length), cols[i] = (S i).sort := by intro i h; simp [cols]
  obtain ⟨t, ws', h1, hr, hn', hm, hrows, hal, hj, hjs, -, hwl, hw, ⟨rest', hH⟩, -, -, hz⟩ :=
    endindices_tail H1 cols (fun i => List.replicate (cap i - (S i).card) m) (fun i => replicate_takeWhile _ _) (by rw [hcl, hlen])
      (fun i h h2 => by rw [hcg i h2]; exact (hS i h).1)
      (by
        intro c hc x hx
        obtain ⟨i, hi, rfl⟩ := List.getElem_of_mem hc
        rw [hcg i hi] at hx
        exact (hS i (by omega)).2.2 x ((Finset.mem_sort (fun a b => a ≤ b)).mp hx))
  rw [h] at h1
  simp only [Out.ok.injEq, true_and] at h1
  subst h1
  have halloc : 0 < s.o.alloc := by
    rw [H1.halloc]
    have h0 : 0 < segs.length := by omega
    have : 0 < segs[0].length := by
      rw [(hS 0 h0).1]
      have := (hS 0 h0).2.1
      simp only [List.length_append, Finset.length_sort, List.length_replicate]
      omega
    have : segs[0].length ≤ segs.flatten.length := by
      rw [List.length_flatten]
      exact List.le_sum_of_mem (List.mem_map.mpr ⟨_, List.getElem_mem h0, rfl⟩)
    omega
  have hmode : s'.o.mode = .random := by
    have hq := h
    have hm0 := H1.mode
    unfold endindices at hq
    simp only [Cmd.bind_def, Cmd.get, hm0, H1.ready, ne_eq, not_true_eq_false, if_false, reduceCtorEq] at hq
    cases htr : truncRows s.h.js s.o.m (s.o.rows.getD []) s.o.nnz with
    | ok r =>
      rw [htr] at hq
      simp only [Cmd.lift, setO, allocateData, Cmd.modify, H1.ha, Option.isSome_none, Bool.false_eq_true, if_false] at hq
      by_cases hal0 : 0 < s.o.alloc
      · simp only [hal0, if_true] at hq
        injection hq with _ hq
        rw [← hq]; exact hm0
      · simp only [hal0, if_false] at hq
        injection hq with _ hq
        rw [← hq]; exact hm0
    | throw e => rw [htr] at hq; simp [Cmd.lift] at hq
    | ub => rw [htr] at hq; simp [Cmd.lift] at hq
  refine ⟨hmode, .inr ⟨by rw [hal]; exact halloc, by rw [hn']; exact hn, ?_⟩⟩
  cases ha : s'.o.a with
  | none => have := hz ha; omega
  | some b =>
    rw [ha] at hH
    exact ⟨b, _, rfl, hH⟩

/-- the rest of a random-mode construction -/
theorem build_from_sizing {s : St B} {n nnz : Nat} (H : Sizing s n n nnz (List.replicate n ⟨0, none, none⟩)) (cap : Nat → Nat)
    (calls : List (Nat × Nat)) (T : Nat → Finset Nat) (hcap : ∀ i < n, (T i).card ≤ cap i) (hpos : 0 < cap 0)
    (hT : ∀ i < n, ∀ j ∈ T i, j < n) (hc : ∀ i j, (i, j) ∈ calls ↔ i < n ∧ j ∈ T i)
    (hsuf : nnz = 0 ∨ (∑ i ∈ Finset.range n, cap i) ≤ nnz) (hz : n = 0 → nnz = 0) :
    ∃ s' rows, (do
        runSizes ((List.range n).map fun i => SizeOp.set i (cap i))
        endrowsizes
        runAddsStrict calls
        endindices : BC B Unit) s = .ok () s' ∧ s'.o.ready = .built ∧ view s' = .ok (n, n, rows) ∧ rows.length = n ∧ Reusable s' ∧
      ∀ i (h : i < rows.length), rows[i].Asc ∧ ∀ j, rows[i].Has j ↔ j ∈ T i := by
  have hs : ∀ op ∈ ((List.range n).map fun i => SizeOp.set i (cap i)), op.row < n := by
    intro op hop
    simp only [List.mem_map, List.mem_range] at hop
    obtain ⟨i, hi, rfl⟩ := hop
    exact hi
  obtain ⟨s2, ws, h2, H2, hsz⟩ := runSizes_sizing H (by simp) _ hs
  have hws : ws.length = n := by rw [H2.rows.1, H2.hn]
  obtain ⟨s3, h3, H3⟩ := endrowsizes_pat H2 cap (by
    intro i hi
    rw [hsz i hi, announced_map_set, if_pos (by omega)]) hsuf
  have hcn : ∀ c ∈ calls, c.1 < n ∧ c.2 ∈ T c.1 := fun c h => (hc c.1 c.2).mp h
  obtain ⟨s4, h4⟩ := runAddsStrict_total H3 T (by simp) hcap hT calls hcn
  obtain ⟨ho, S', H4, hS'⟩ := runAddsStrict_ok H3 calls (fun c h => (hcn c h).1) s4 h4
  obtain ⟨s5, rows, h5, hb, hv, hl, hr⟩ := endindices_pat H4
  refine ⟨s5, rows, ?_, hb, hv, hl, ?_, ?_⟩
  · rw [Cmd.bind_ok h2, Cmd.bind_ok h3, Cmd.bind_ok h4, h5]
  · by_cases hn : n = 0
    · subst hn
      have hnz := hz rfl
      subst hnz
      have e2 : s2 = s := by simp [runSizes] at h2; exact h2.symm
      subst e2
      have hr0 := H.rows.2
      have hrn : s2.o.rows = none := by rw [hr0, if_pos H.hn]
      have hcalls : calls = [] := by
        cases calls with
        | nil => rfl
        | cons c cs => exact absurd (hcn c (by simp)).1 (by omega)
      subst hcalls
      have e4 : s4 = s3 := by simp [runAddsStrict] at h4; exact h4.symm
      subst e4
      have q3 := h3
      simp [endrowsizes, endrowsizesAlloc, Cmd.bind_def, Cmd.get, H.mode, H.ready, H.hnnz, totalSize, hrn, allocate, setO, allocateIdx,
        Cmd.lift, Mem.write, Cmd.modify] at q3
      subst q3
      have q5 := h5
      simp [endindices, Cmd.bind_def, Cmd.get, H.mode, hrn, truncRows, Cmd.lift, setO, allocateData, H.ha] at q5
      subst q5
      exact ⟨rfl, .inl ⟨rfl, H.hn, rfl, rfl, rfl⟩⟩
    · exact endindices_reusable H4 (by omega) hpos h5
  · intro i hi
    have e : rows[i].map Prod.fst = (S' i).sort := by
      rw [hr i hi, List.map_map]; exact List.map_id' _
    refine ⟨?_, ?_⟩
    · unfold Row.Asc
      rw [e]
      exact sort_asc _
    · intro j
      have : (rows[i]).Has j ↔ j ∈ rows[i].map Prod.fst := by
        simp [Row.Has]
      rw [this, e, Finset.mem_sort, hS' i j, hc]
      simp only [Finset.notMem_empty, false_or]
      exact ⟨fun h => h.2, fun h => ⟨by omega, h⟩⟩

theorem sum_tri (n : Nat) (hn : 0 < n) :
    (∑ i ∈ Finset.range n, (3 - (if i = 0 then 1 else 0) - (if i = n - 1 then 1 else 0))) ≤ n + 2 * (n - 1) := by
  obtain ⟨k, rfl⟩ : ∃ k, n = k + 1 := ⟨n - 1, by omega⟩
  rw [Finset.sum_range_succ]
  cases k with
  | zero => simp
  | succ k =>
    rw [Finset.sum_range_succ', Finset.sum_congr rfl (g := fun _ => 3) (by
      intro i hi
      rw [Finset.mem_range] at hi
      rw [if_neg (by omega), if_neg (by omega)])]
    simp
    omega

/-- A `BTDMatrix(n)`, resized any number of times: every `setSize(k)` succeeds and leaves a built `k` x `k` matrix whose pattern is exactly the
tridiagonal one. -/
theorem C37_tridiagonal_resize (h : Heap B) (o : Obj B) (n : Nat) (ks : List Nat) :
    ∃ s rows, (do btdCtor n; ks.forM btdSetSize : BC B Unit) ⟨h, o⟩ = .ok () s ∧ s.o.ready = .built ∧
      view s = .ok (ks.getLastD n, ks.getLastD n, rows) ∧ rows.length = ks.getLastD n ∧ TriPattern (spOf (ks.getLastD n) (ks.getLastD n) rows) := by
  have fin : ∀ (k : Nat) (rows : List (Row B)), rows.length = k →
      (∀ i (h : i < rows.length), rows[i].Asc ∧ ∀ j, rows[i].Has j ↔ j ∈ triCols k i) → TriPattern (spOf k k rows) := by
    intro k rows hl hr
    refine ⟨rfl, fun i hi => ?_⟩
    have hi' : i < rows.length := by rw [hl]; exact hi
    have e : (spOf k k rows).row i = rows[i] := by simp [spOf, hi']
    rw [e]
    refine ⟨(hr i hi').1, fun j => ?_⟩
    rw [(hr i hi').2 j, mem_triCols k i j hi]
    exact Iff.rfl
  have build : ∀ (k nnz : Nat) (s : St B), Sizing s k k nnz (List.replicate k ⟨0, none, none⟩) → (nnz = 0 ∨ nnz = k + 2 * (k - 1)) → (k = 0 → nnz = 0) →
      ∃ s' rows, (do runSizes (sizes k); endrowsizes; runAddsStrict (calls k); endindices : BC B Unit) s = .ok () s' ∧ s'.o.ready = .built ∧
        view s' = .ok (k, k, rows) ∧ rows.length = k ∧ Reusable s' ∧ TriPattern (spOf k k rows) := by
    intro k nnz s H hk hz
    obtain ⟨s', rows, h1, h2, h3, h4, h5, h6⟩ := build_from_sizing H
      (fun i => 3 - (if i = 0 then 1 else 0) - (if i = k - 1 then 1 else 0)) (calls k) (triCols k)
      (fun i hi => card_triCols k i hi) (by simp only [if_true]; split <;> omega) (fun i hi j hj => ((mem_triCols k i j hi).mp hj).1)
      (fun i j => mem_calls k i j) (by
        rcases Nat.eq_zero_or_pos k with h0 | h0
        · exact .inl (hz h0)
        · rcases hk with hk | hk
          · exact .inl hk
          · exact .inr (by rw [hk]; exact sum_tri k h0)) hz
    exact ⟨s', rows, h1, h2, h3, h4, h5, fin k rows h4 h6⟩
  obtain ⟨s1, h1, H1⟩ := ctor_sizing h o n n 0
  obtain ⟨s2, rows2, g1, g2, g3, g4, g5, g6⟩ := build n 0 s1 H1 (.inl rfl) (fun _ => rfl)
  have hc : btdCtor n ⟨h, o⟩ = .ok () s2 := by
    unfold btdCtor
    rw [Cmd.bind_ok h1]; exact g1
  rw [Cmd.bind_ok hc]
  clear g1 hc h1 H1 s1
  induction ks generalizing n s2 rows2 with
  | nil => exact ⟨s2, rows2, rfl, g2, g3, g4, g6⟩
  | cons k ks ih =>
    obtain ⟨s3, h3, H3⟩ := setSize_sizing g5 k k (if k = 0 then 0 else k + 2 * (k - 1))
    obtain ⟨s4, rows4, f1, f2, f3, f4, f5, f6⟩ := build k _ s3 H3 (by split <;> simp_all) (by intro e; rw [if_pos e])
    have hst : btdSetSize k s2 = .ok () s4 := by
      unfold btdSetSize
      rw [Cmd.bind_ok h3]; exact f1
    obtain ⟨s5, rows5, e1, e2, e3, e4, e5⟩ := ih k s4 rows4 f2 f3 f4 f5 f6
    refine ⟨s5, rows5, ?_, e2, ?_, ?_, ?_⟩
    · show (do btdSetSize k; ks.forM btdSetSize : BC B Unit) s2 = _
      rw [Cmd.bind_ok hst]; exact e1
    · rw [List.getLastD_cons]; exact e3
    · rw [List.getLastD_cons]; exact e4
    · rw [List.getLastD_cons]; exact e5

/-- A `BDMatrix(n)`, resized any number of times, is built and has exactly the diagonal pattern. -/
theorem C37_diagonal_resize (h : Heap B) (o : Obj B) (n : Nat) (ks : List Nat) :
    ∃ s rows, (do bdCtor n; ks.forM bdSetSize : BC B Unit) ⟨h, o⟩ = .ok () s ∧ s.o.ready = .built ∧
      view s = .ok (ks.getLastD n, ks.getLastD n, rows) ∧ rows.length = ks.getLastD n ∧ DiagPattern (spOf (ks.getLastD n) (ks.getLastD n) rows) := by
  have build : ∀ (k nnz : Nat) (s : St B), Sizing s k k nnz (List.replicate k ⟨0, none, none⟩) → (nnz = 0 ∨ nnz = k) → (k = 0 → nnz = 0) →
      ∃ s' rows, (do runSizes ((List.range k).map fun i => .set i 1); endrowsizes; runAddsStrict ((List.range k).map fun i => (i, i)); endindices : BC B Unit) s =
          .ok () s' ∧ s'.o.ready = .built ∧
        view s' = .ok (k, k, rows) ∧ rows.length = k ∧ Reusable s' ∧ DiagPattern (spOf k k rows) := by
    intro k nnz s H hk hz
    obtain ⟨s', rows, h1, h2, h3, h4, h5, h6⟩ := build_from_sizing H
      (fun _ => 1) ((List.range k).map fun i => (i, i)) (fun i => {i})
      (fun i hi => by simp) (by simp) (fun i hi j hj => by rw [Finset.mem_singleton] at hj; omega)
      (fun i j => by
        simp only [List.mem_map, List.mem_range, Prod.mk.injEq, Finset.mem_singleton]
        constructor
        · rintro ⟨q, hq, rfl, rfl⟩; exact ⟨hq, rfl⟩
        · rintro ⟨hi, rfl⟩; exact ⟨_, hi, rfl, rfl⟩) (by
          rcases hk with hk | hk
          · exact .inl hk
          · exact .inr (by simp [hk])) hz
    refine ⟨s', rows, h1, h2, h3, h4, h5, rfl, fun i hi => ?_⟩
    have hi' : i < rows.length := by rw [h4]; exact hi
    have e : (spOf k k rows).row i = rows[i] := by simp [spOf, hi']
    rw [e]
    refine ⟨(h6 i hi').1, fun j => ?_⟩
    rw [(h6 i hi').2 j, Finset.mem_singleton]
  obtain ⟨s1, h1, H1⟩ := ctor_sizing h o n n 0
  obtain ⟨s2, rows2, g1, g2, g3, g4, g5, g6⟩ := build n 0 s1 H1 (.inl rfl) (fun _ => rfl)
  have hc : bdCtor n ⟨h, o⟩ = .ok () s2 := by
    unfold bdCtor
    rw [Cmd.bind_ok h1]; exact g1
  rw [Cmd.bind_ok hc]
  clear g1 hc h1 H1 s1
  induction ks generalizing n s2 rows2 with
  | nil => exact ⟨s2, rows2, rfl, g2, g3, g4, g6⟩
  | cons k ks ih =>
    obtain ⟨s3, h3, H3⟩ := setSize_sizing g5 k k k
    obtain ⟨s4, rows4, f1, f2, f3, f4, f5, f6⟩ := build k _ s3 H3 (.inr rfl) id
    have hst : bdSetSize k s2 = .ok () s4 := by
      unfold bdSetSize
      rw [Cmd.bind_ok h3]; exact f1
    obtain ⟨s5, rows5, e1, e2, e3, e4, e5⟩ := ih k s4 rows4 f2 f3 f4 f5 f6
    refine ⟨s5, rows5, ?_, e2, ?_, ?_, ?_⟩
    · show (do bdSetSize k; ks.forM bdSetSize : BC B Unit) s2 = _
      rw [Cmd.bind_ok hst]; exact e1
    · rw [List.getLastD_cons]; exact e3
    · rw [List.getLastD_cons]; exact e4
    · rw [List.getLastD_cons]; exact e5

end Construction

section Solve
variable {R V : Type} [Ring R] [AddCommGroup V] [Module R V]

theorem get_val {r : Row R} (hs : r.Asc) {j : Nat} (h : r.Has j) : r.get j = .ok (r.val j) := by
  obtain ⟨b, hb⟩ := h
  rw [Row.get_of_mem r hs hb, Row.val_of_mem hs hb]

theorem tri_get {A : SpMat R} (H : TriPattern A) {i j : Nat} (hi : i < A.n) (hj : j < A.n)
    (h : j + 1 = i ∨ j = i ∨ j = i + 1) : (A.row i).get j = .ok (A.entry i j) :=
  get_val (H.2 i hi).1 (((H.2 i hi).2 j).mpr ⟨hj, h⟩)

theorem tri_zero {A : SpMat R} (H : TriPattern A) {i j : Nat} (hi : i < A.n)
    (h : ¬ (j < A.n ∧ (j + 1 = i ∨ j = i ∨ j = i + 1))) : A.entry i j = 0 := by
  apply Row.val_of_not_mem
  intro b hb
  exact h (((H.2 i hi).2 j).mp ⟨b, hb⟩)

/-- The row sum of a tridiagonal matrix; the right neighbour of the last row has coefficient zero. -/
theorem tri_row {A : SpMat R} (H : TriPattern A) (x : Nat → V) {i : Nat} (hi : i < A.n) :
    ∑ j ∈ Finset.range A.m, A.entry i j • x j =
      (if i = 0 then 0 else A.entry i (i - 1) • x (i - 1)) + A.entry i i • x i + A.entry i (i + 1) • x (i + 1) := by
  rw [H.1]
  have h0 : ∀ j ∈ Finset.range A.n, j ∉ (triCols A.n i) → A.entry i j • x j = 0 := by
    intro j _ hj
    rw [mem_triCols _ _ _ hi] at hj
    rw [tri_zero H hi hj, zero_smul]
  rw [← Finset.sum_subset (s₁ := triCols A.n i) (fun j hj => by
    rw [Finset.mem_range]; exact ((mem_triCols _ _ _ hi).mp hj).1) h0]
  have hne : i - 1 ≠ i ∨ i = 0 := by omega
  have hR : ¬ i < A.n - 1 → A.entry i (i + 1) • x (i + 1) = 0 := by
    intro h
    rw [tri_zero H hi (by omega), zero_smul]
  unfold triCols
  by_cases h1 : 0 < i <;> by_cases h2 : i < A.n - 1
  · rw [if_pos h1, if_pos h2, if_neg (by omega), Finset.sum_union, Finset.sum_union] <;> simp <;> omega
  · rw [if_pos h1, if_neg h2, if_neg (by omega), Finset.union_empty, Finset.sum_union, hR h2] <;> simp; omega
  · rw [if_neg h1, if_pos h2, if_pos (by omega), Finset.empty_union, Finset.sum_union] <;> simp
  · rw [if_neg h1, if_neg h2, if_pos (by omega), Finset.empty_union, Finset.union_empty, hR h2]; simp

theorem invert_ok (I : BlockInv R) {a b : R} (h : a * b = 1 ∧ b * a = 1) : invert I a = .ok b := by
  unfold invert
  rw [(I.inv_iff a b).mpr h]

theorem invert_cases (I : BlockInv R) (a : R) :
    (∃ b, invert I a = .ok b ∧ a * b = 1 ∧ b * a = 1) ∨
      (invert I a = .throw .fmatrixError ∧ ∀ b, ¬ (a * b = 1 ∧ b * a = 1)) := by
  unfold invert
  cases h : I.inv a with
  | some b => exact .inl ⟨b, rfl, (I.inv_iff a b).mp h⟩
  | none =>
    refine .inr ⟨rfl, fun b hb => ?_⟩
    rw [(I.inv_iff a b).mpr hb] at h
    cases h

theorem inv_unique {a b c : R} (h : a * b = 1 ∧ b * a = 1) (h' : a * c = 1 ∧ c * a = 1) : b = c := by
  calc b = b * (a * c) := by rw [h'.1, mul_one]
    _ = (b * a) * c := by rw [mul_assoc]
    _ = c := by rw [h.2, one_mul]

theorem pivots_unique {A : SpMat R} {u v : Nat → R} {k : Nat} (hu : Pivots A u k) (hv : Pivots A v k) :
    ∀ i ≤ k, u i = v i := by
  intro i
  induction i with
  | zero => intro _; exact inv_unique hu.1 hv.1
  | succ i ih =>
    intro hi
    have e := ih (by omega)
    have h1 := hu.2 i (by omega)
    have h2 := hv.2 i (by omega)
    rw [← e] at h2
    exact inv_unique h1 h2

theorem thomasCopy_eq {A : SpMat R} (H : TriPattern A) (k : Nat) (hk : k ≤ A.n - 1) :
    ∃ c, thomasCopy A k = .ok c ∧ (∀ i < k, c i = A.entry i (i + 1)) ∧ ∀ i, k ≤ i → c i = 0 := by
  induction k with
  | zero => exact ⟨fun _ => 0, rfl, by simp, by simp⟩
  | succ k ih =>
    obtain ⟨c, h1, h2, h3⟩ := ih (by omega)
    refine ⟨upd c k (A.entry k (k + 1)), ?_, ?_, ?_⟩
    · unfold thomasCopy at h1 ⊢
      rw [forRangeM_succ, h1, Res.ok_bind, tri_get H (by omega) (by omega) (.inr (.inr rfl)), Res.ok_bind, put,
        if_pos (by omega)]
    · intro i hi
      by_cases e : i = k
      · subst e; simp
      · rw [upd_ne _ _ e]; exact h2 i (by omega)
    · intro i hi
      rw [upd_ne _ _ (by omega)]
      exact h3 i (by omega)

/-- state of the elimination after pass `k` -/
structure FwdInv (A : SpMat R) (rhs : Nat → V) (u : Nat → R) (k : Nat) (s : (Nat → R) × (Nat → V)) : Prop where
  piv : Pivots A u k
  c : ∀ i ≤ k, s.1 i = u i * A.entry i (i + 1)
  cRest : ∀ i, k < i → i < A.n → s.1 i = A.entry i (i + 1)
  d0 : s.2 0 = u 0 • rhs 0
  d : ∀ i < k, s.2 (i + 1) = u (i + 1) • (rhs (i + 1) - A.entry (i + 1) i • s.2 i)
  dRest : ∀ i, k < i → s.2 i = rhs i

theorem thomasFwd_inv (I : BlockInv R) {A : SpMat R} (H : TriPattern A) (rhs : Nat → V) (s0 : (Nat → R) × (Nat → V))
    (u0 : Nat → R) (h0 : FwdInv A rhs u0 0 s0) (k : Nat) (hk : k ≤ A.n - 1) (hn : 0 < A.n) :
    (∃ u s, forRangeM k (thomasFwd I A) s0 = .ok s ∧ FwdInv A rhs u k s) ∨
      (forRangeM k (thomasFwd I A) s0 = .throw .fmatrixError ∧ ∀ u, ¬ Pivots A u k) := by
  induction k with
  | zero => exact .inl ⟨u0, s0, rfl, h0⟩
  | succ k ih =>
    rw [forRangeM_succ]
    rcases ih (by omega) with ⟨u, s, h1, h2⟩ | ⟨h1, h2⟩
    · rw [h1, Res.ok_bind]
      unfold thomasFwd
      rw [tri_get H (i := k + 1) (by omega) (by omega) (.inl rfl), Res.ok_bind,
        tri_get H (i := k + 1) (by omega) (by omega) (.inr (.inl rfl)), Res.ok_bind, h2.c k (le_refl k)]
      rcases invert_cases I (A.entry (k + 1) (k + 1) - A.entry (k + 1) k * (u k * A.entry k (k + 1))) with ⟨b, hb, hb'⟩ | ⟨hb, hb'⟩
      · left
        have hput : thomasScale (A.n - 1) s.1 (k + 1) b =
            .ok (if k + 1 < A.n - 1 then upd s.1 (k + 1) (b * s.1 (k + 1)) else s.1) := by
          unfold thomasScale
          split
          · rw [put, if_pos (by omega)]
          · rfl
        rw [hb, Res.ok_bind, hput, Res.ok_bind]
        refine ⟨upd u (k + 1) b, _, rfl, ?_, ?_, ?_, ?_, ?_, ?_⟩
        · refine ⟨?_, ?_⟩
          · rw [upd_ne _ _ (by omega)]; exact h2.piv.1
          · intro i hi
            by_cases e : i = k
            · subst e
              rw [upd_same, upd_ne _ _ (by omega)]; exact hb'
            · rw [upd_ne _ _ (by omega : i + 1 ≠ k + 1), upd_ne _ _ (by omega : i ≠ k + 1)]
              exact h2.piv.2 i (by omega)
        · intro i hi
          dsimp only
          by_cases e : i = k + 1
          · subst e
            have hc := h2.cRest (k + 1) (by omega) (by omega)
            split
            · rw [upd_same, upd_same, hc]
            · rw [upd_same, hc, tri_zero H (by omega) (by omega), mul_zero]
          · have := h2.c i (by omega)
            rw [upd_ne _ _ e]
            split
            · rw [upd_ne _ _ e, this]
            · exact this
        · intro i hi hin
          dsimp only
          have := h2.cRest i (by omega) hin
          split
          · rw [upd_ne _ _ (by omega), this]
          · exact this
        · dsimp only
          rw [upd_ne _ _ (by omega), upd_ne _ _ (by omega)]; exact h2.d0
        · intro i hi
          dsimp only
          by_cases e : i = k
          · subst e
            rw [upd_same, upd_same, upd_ne _ _ (by omega : i ≠ i + 1), h2.dRest (i + 1) (by omega)]
          · rw [upd_ne _ _ (by omega : i + 1 ≠ k + 1), upd_ne _ _ (by omega : i + 1 ≠ k + 1), upd_ne _ _ (by omega : i ≠ k + 1)]
            exact h2.d i (by omega)
        · intro i hi
          dsimp only
          rw [upd_ne _ _ (by omega)]
          exact h2.dRest i (by omega)
      · right
        rw [hb]
        refine ⟨rfl, fun v hv => ?_⟩
        have e := pivots_unique (k := k) h2.piv ⟨hv.1, fun i hi => hv.2 i (by omega)⟩ k (le_refl k)
        have := hv.2 k (by omega)
        rw [← e] at this
        exact hb' _ this
    · right
      rw [h1]
      refine ⟨rfl, fun u hu => h2 u ⟨hu.1, fun i hi => hu.2 i (by omega)⟩⟩

theorem backSubst (d : Nat → V) (c : Nat → R) (n : Nat) (x : Nat → V) :
    let y := forDown n (fun i x => upd x i (d i - c i • x (i + 1))) x
    (∀ i < n, y i = d i - c i • y (i + 1)) ∧ ∀ i, n ≤ i → y i = x i := by
  induction n generalizing x with
  | zero => simp
  | succ n ih =>
    rw [forDown_succ]
    obtain ⟨h1, h2⟩ := ih (upd x n (d n - c n • x (n + 1)))
    refine ⟨?_, ?_⟩
    · intro i hi
      by_cases e : i = n
      · subst e
        rw [h2 i (le_refl i), h2 (i + 1) (by omega), upd_same, upd_ne _ _ (by omega)]
      · exact h1 i (by omega)
    · intro i hi
      rw [h2 i (by omega), upd_ne _ _ (by omega)]

/-- any solution of the recurrences of the eliminated system solves the system, and conversely -/
theorem recur_iff {A : SpMat R} (H : TriPattern A) (rhs : Nat → V) (u : Nat → R) (s : (Nat → R) × (Nat → V)) (n : Nat)
    (hn : A.n = n + 1) (F : FwdInv A rhs u n s) (y : Nat → V) :
    Solves A y rhs ↔ ∀ i ≤ n, y i = s.2 i - s.1 i • y (i + 1) := by
  unfold Solves
  constructor
  · intro h i
    induction i with
    | zero =>
      intro _
      have := h 0 (by omega)
      rw [tri_row H y (by omega), if_pos rfl, zero_add] at this
      rw [F.d0, F.c 0 (by omega), ← this, smul_add, ← mul_smul, F.piv.1.2, one_smul, ← mul_smul]
      abel
    | succ i ih =>
      intro hi
      have e := ih (by omega)
      have := h (i + 1) (by omega)
      rw [tri_row H y (by omega), if_neg (by omega), Nat.add_sub_cancel] at this
      have ed : s.2 i = y i + s.1 i • y (i + 1) := by rw [e]; abel
      have hp := F.piv.2 i (by omega)
      rw [F.d i (by omega), F.c (i + 1) hi, ← this, ed, F.c i (by omega)]
      have : A.entry (i + 1) i • y i + A.entry (i + 1) (i + 1) • y (i + 1) + A.entry (i + 1) (i + 1 + 1) • y (i + 1 + 1) -
          A.entry (i + 1) i • (y i + (u i * A.entry i (i + 1)) • y (i + 1)) =
          (A.entry (i + 1) (i + 1) - A.entry (i + 1) i * (u i * A.entry i (i + 1))) • y (i + 1) +
            A.entry (i + 1) (i + 1 + 1) • y (i + 1 + 1) := by
        rw [sub_smul, smul_add, mul_smul (A.entry (i + 1) i)]
        abel
      rw [this, smul_add, ← mul_smul, hp.2, one_smul, ← mul_smul]
      abel
  · intro h i hi
    rw [tri_row H y hi]
    cases i with
    | zero =>
      rw [if_pos rfl, zero_add, h 0 (by omega), F.d0, F.c 0 (by omega), smul_sub, ← mul_smul, ← mul_smul, ← mul_assoc, F.piv.1.1,
        one_smul, one_mul]
      abel
    | succ i =>
      rw [if_neg (by omega), Nat.add_sub_cancel, h i (by omega)]
      have hp := F.piv.2 i (by omega)
      have e : (A.entry (i + 1) (i + 1) - A.entry (i + 1) i * (u i * A.entry i (i + 1))) • y (i + 1) =
          rhs (i + 1) - A.entry (i + 1) i • s.2 i - A.entry (i + 1) (i + 1 + 1) • y (i + 1 + 1) := by
        rw [h (i + 1) (by omega), F.d i (by omega), F.c (i + 1) (by omega)]
        generalize A.entry (i + 1) (i + 1) - A.entry (i + 1) i * (u i * A.entry i (i + 1)) = p at hp ⊢
        rw [smul_sub, ← mul_smul, ← mul_smul, ← mul_assoc, hp.1, one_smul, one_mul]
      rw [F.c i (by omega), smul_sub]
      rw [sub_smul, mul_smul (A.entry (i + 1) i)] at e
      rw [sub_eq_iff_eq_add] at e
      rw [e]
      abel

/-- The complete behaviour of `BTDMatrix::solve` on a tridiagonal matrix with `N() >= 1`, for non-commuting blocks: either all
pivot blocks are invertible and the call returns `x` with `A x = rhs` (entries of the vector beyond `N()` untouched), every solution
agreeing with it; or some pivot block is singular and `FMatrixError` is thrown. -/
theorem C37_thomas (I : BlockInv R) (A : SpMat R) (H : TriPattern A) (hn : 0 < A.n) (rhs x0 : Nat → V) :
    (∃ u x, Pivots A u (A.n - 1) ∧ thomas I A rhs x0 = .ok x ∧ Solves A x rhs ∧ (∀ i, A.n ≤ i → x i = x0 i) ∧
      ∀ y, Solves A y rhs → ∀ i < A.n, y i = x i) ∨
    ((∀ u, ¬ Pivots A u (A.n - 1)) ∧ thomas I A rhs x0 = .throw .fmatrixError) := by
  obtain ⟨n, hn'⟩ : ∃ n, A.n = n + 1 := ⟨A.n - 1, by omega⟩
  unfold thomas
  by_cases h1 : A.n = 1
  · rw [if_pos h1, tri_get H (by omega) (by omega) (.inr (.inl rfl)), Res.ok_bind]
    have hs : ∀ y : Nat → V, Solves A y rhs ↔ A.entry 0 0 • y 0 = rhs 0 := by
      intro y
      have e : ∀ z : Nat → V, ∑ j ∈ Finset.range A.m, A.entry 0 j • z j = A.entry 0 0 • z 0 := by
        intro z
        rw [tri_row H z (by omega), tri_zero H (i := 0) (j := 0 + 1) (by omega) (by omega)]; simp
      constructor
      · intro h; rw [← e]; exact h 0 (by omega)
      · intro h i hi
        obtain rfl : i = 0 := by omega
        rw [e, h]
    rcases invert_cases I (A.entry 0 0) with ⟨b, hb, hb'⟩ | ⟨hb, hb'⟩
    · left
      refine ⟨fun _ => b, upd x0 0 (b • rhs 0), ⟨hb', by rw [h1]; intro i hi; omega⟩, by rw [hb]; rfl, ?_, ?_, ?_⟩
      · rw [hs, upd_same, ← mul_smul, hb'.1, one_smul]
      · intro i hi; rw [upd_ne _ _ (by omega)]
      · intro y hy i hi
        obtain rfl : i = 0 := by omega
        rw [hs] at hy
        rw [upd_same, ← hy, ← mul_smul, hb'.2, one_smul]
    · right
      refine ⟨fun u hu => hb' _ hu.1, by rw [hb]; rfl⟩
  · rw [if_neg h1, if_neg (by omega)]
    obtain ⟨c, hc, hc1, hc2⟩ := thomasCopy_eq H (A.n - 1) (le_refl _)
    rw [hc, Res.ok_bind, tri_get H (by omega) (by omega) (.inr (.inl rfl)), Res.ok_bind]
    rcases invert_cases I (A.entry 0 0) with ⟨b, hb, hb'⟩ | ⟨hb, hb'⟩
    · rw [hb, Res.ok_bind]
      have hall : ∀ i < A.n, c i = A.entry i (i + 1) := by
        intro i hi
        by_cases e : i < A.n - 1
        · exact hc1 i e
        · rw [hc2 i (by omega), tri_zero H hi (by omega)]
      have h0 : FwdInv A rhs (fun _ => b) 0 (upd c 0 (b * c 0), upd rhs 0 (b • rhs 0)) := by
        refine ⟨⟨hb', by intro i hi; omega⟩, ?_, ?_, by simp, by intro i hi; omega, ?_⟩
        · intro i hi
          obtain rfl : i = 0 := by omega
          dsimp only
          rw [upd_same, hall 0 (by omega)]
        · intro i hi hin
          dsimp only
          rw [upd_ne _ _ (by omega), hall i hin]
        · intro i hi
          dsimp only
          rw [upd_ne _ _ (by omega)]
      rcases thomasFwd_inv I H rhs _ _ h0 (A.n - 1) (le_refl _) hn with ⟨u, s, hs, F⟩ | ⟨hs, hF⟩
      · left
        rw [hs, Res.ok_bind]
        obtain ⟨b1, b2⟩ := backSubst s.2 s.1 (A.n - 1) (upd x0 (A.n - 1) (s.2 (A.n - 1)))
        have hlast : s.1 (A.n - 1) = 0 := by rw [F.c _ (le_refl _), tri_zero H (by omega) (by omega), mul_zero]
        have F' : FwdInv A rhs u n s := by rw [hn', Nat.add_sub_cancel] at F; exact F
        refine ⟨u, _, F.piv, rfl, ?_, ?_, ?_⟩
        · rw [recur_iff H rhs u s n hn' F']
          intro i hi
          by_cases e : i = n
          · have e' : i = A.n - 1 := by omega
            subst e'
            rw [b2 _ (le_refl _), upd_same, hlast, zero_smul, sub_zero]
          · exact b1 i (by omega)
        · intro i hi
          rw [b2 i (by omega), upd_ne _ _ (by omega)]
        · intro y hy
          rw [recur_iff H rhs u s n hn' F'] at hy
          have key : ∀ t, t ≤ n → y (n - t) = forDown (A.n - 1) (fun i x => upd x i (s.2 i - s.1 i • x (i + 1)))
              (upd x0 (A.n - 1) (s.2 (A.n - 1))) (n - t) := by
            intro t
            induction t with
            | zero =>
              intro _
              have e' : n - 0 = A.n - 1 := by omega
              rw [e', b2 _ (le_refl _), upd_same, hy _ (by omega), hlast, zero_smul, sub_zero]
            | succ t ih =>
              intro ht
              have e := ih (by omega)
              rw [hy _ (by omega), b1 _ (by omega)]
              have e' : n - (t + 1) + 1 = n - t := by omega
              rw [e', e]
          intro i hi
          have := key (n - i) (by omega)
          have e' : n - (n - i) = i := by omega
          rw [e'] at this
          exact this
      · right
        rw [hs]
        exact ⟨hF, rfl⟩
    · right
      rw [hb]
      exact ⟨fun u hu => hb' _ hu.1, rfl⟩

theorem diag_get {A : SpMat R} (H : DiagPattern A) {i : Nat} (hi : i < A.n) : (A.row i).get i = .ok (A.entry i i) :=
  get_val (H.2 i hi).1 (((H.2 i hi).2 i).mpr rfl)

theorem diag_row {A : SpMat R} (H : DiagPattern A) (x : Nat → V) {i : Nat} (hi : i < A.n) :
    ∑ j ∈ Finset.range A.m, A.entry i j • x j = A.entry i i • x i := by
  rw [H.1]
  apply Finset.sum_eq_single_of_mem i (Finset.mem_range.mpr hi)
  intro j _ hj
  have : A.entry i j = 0 := by
    apply Row.val_of_not_mem
    intro b hb
    exact hj (((H.2 i hi).2 j).mp ⟨b, hb⟩)
  rw [this, zero_smul]

/-- The complete behaviour of `BDMatrix::solve`: the unique solution when all diagonal blocks are invertible, else `FMatrixError`. -/
theorem C37_diagonal_solve (I : BlockInv R) (A : SpMat R) (H : DiagPattern A) (rhs x0 : Nat → V) :
    ((∀ i < A.n, ∃ b, A.entry i i * b = 1 ∧ b * A.entry i i = 1) ∧ ∃ x, bdSolve I A rhs x0 = .ok x ∧ Solves A x rhs ∧
      (∀ i, A.n ≤ i → x i = x0 i) ∧ ∀ y, Solves A y rhs → ∀ i < A.n, y i = x i) ∨
    ((¬ ∀ i < A.n, ∃ b, A.entry i i * b = 1 ∧ b * A.entry i i = 1) ∧ bdSolve I A rhs x0 = .throw .fmatrixError) := by
  have key : ∀ k ≤ A.n, (∃ (u : Nat → R) (x : Nat → V), (∀ i < k, A.entry i i * u i = 1 ∧ u i * A.entry i i = 1) ∧
      forRangeM k (fun i x => do
        let a ← (A.row i).get i
        let b ← invert I a
        .ok (upd x i (b • rhs i))) x0 = .ok x ∧ (∀ i < k, x i = u i • rhs i) ∧ ∀ i, k ≤ i → x i = x0 i) ∨
      ((¬ ∀ i < k, ∃ b, A.entry i i * b = 1 ∧ b * A.entry i i = 1) ∧ forRangeM k (fun i x => do
        let a ← (A.row i).get i
        let b ← invert I a
        .ok (upd x i (b • rhs i))) x0 = .throw .fmatrixError) := by
    intro k
    induction k with
    | zero => intro _; exact .inl ⟨fun _ => 0, x0, by simp, rfl, by simp, by simp⟩
    | succ k ih =>
      intro hk
      rw [forRangeM_succ]
      rcases ih (by omega) with ⟨u, x, hu, hx, h1, h2⟩ | ⟨h1, h2⟩
      · rw [hx, Res.ok_bind, diag_get H (by omega), Res.ok_bind]
        rcases invert_cases I (A.entry k k) with ⟨b, hb, hb'⟩ | ⟨hb, hb'⟩
        · left
          refine ⟨upd u k b, upd x k (b • rhs k), ?_, by rw [hb]; rfl, ?_, ?_⟩
          · intro i hi
            by_cases e : i = k
            · subst e; rw [upd_same]; exact hb'
            · rw [upd_ne _ _ e]; exact hu i (by omega)
          · intro i hi
            by_cases e : i = k
            · subst e; rw [upd_same, upd_same]
            · rw [upd_ne _ _ e, upd_ne _ _ e]; exact h1 i (by omega)
          · intro i hi
            rw [upd_ne _ _ (by omega)]; exact h2 i (by omega)
        · right
          rw [hb]
          refine ⟨fun h => ?_, rfl⟩
          obtain ⟨c, hc⟩ := h k (by omega)
          exact hb' c hc
      · right
        rw [h2]
        exact ⟨fun h => h1 fun i hi => h i (by omega), rfl⟩
  unfold bdSolve
  rcases key A.n (le_refl _) with ⟨u, x, hu, hx, h1, h2⟩ | h
  · left
    refine ⟨fun i hi => ⟨u i, hu i hi⟩, x, hx, ?_, h2, ?_⟩
    · intro i hi
      rw [diag_row H x hi, h1 i hi, ← mul_smul, (hu i hi).1, one_smul]
    · intro y hy i hi
      have := hy i hi
      rw [diag_row H y hi] at this
      rw [h1 i hi, ← this, ← mul_smul, (hu i hi).2, one_smul]
  · exact .inr h

/-- The complete behaviour of `BDMatrix::invert()`: same pattern, every diagonal block replaced by its inverse, or `FMatrixError`. -/
theorem C37_diagonal_invert (I : BlockInv R) (A : SpMat R) (H : DiagPattern A) :
    (∃ A', bdInvert I A = .ok A' ∧ DiagPattern A' ∧ A'.n = A.n ∧
      ∀ i < A.n, A.entry i i * A'.entry i i = 1 ∧ A'.entry i i * A.entry i i = 1) ∨
    ((¬ ∀ i < A.n, ∃ b, A.entry i i * b = 1 ∧ b * A.entry i i = 1) ∧ bdInvert I A = .throw .fmatrixError) := by
  have hrow : ∀ i < A.n, A.row i = [(i, A.entry i i)] := by
    intro i hi
    have hh := (H.2 i hi)
    have : ∀ e ∈ A.row i, e = (i, A.entry i i) := by
      intro e he
      have h1 : e.1 = i := (hh.2 e.1).mp ⟨e.2, he⟩
      obtain ⟨a, b⟩ := e
      simp only at h1
      subst h1
      rw [show A.entry a a = b from Row.val_of_mem hh.1 he]
    have hne : A.row i ≠ [] := by
      intro h0
      obtain ⟨b, hb⟩ := (hh.2 i).mpr rfl
      rw [h0] at hb
      cases hb
    match hr : A.row i with
    | [] => exact absurd hr hne
    | [e] => rw [this e (by rw [hr]; simp)]
    | e :: e' :: t =>
      exfalso
      have h1 := this e (by rw [hr]; simp)
      have h2 := this e' (by rw [hr]; simp)
      have := hh.1
      rw [hr, Row.Asc] at this
      simp [h1, h2] at this
  have key : ∀ k ≤ A.n, (∃ A', forRangeM k (bdInvertRow I) A = .ok A' ∧ A'.n = A.n ∧ A'.m = A.m ∧
      (∀ i < k, ∃ b, A'.row i = [(i, b)] ∧ A.entry i i * b = 1 ∧ b * A.entry i i = 1) ∧ ∀ i, k ≤ i → A'.row i = A.row i) ∨
      ((¬ ∀ i < k, ∃ b, A.entry i i * b = 1 ∧ b * A.entry i i = 1) ∧ forRangeM k (bdInvertRow I) A = .throw .fmatrixError) := by
    intro k
    induction k with
    | zero => intro _; exact .inl ⟨A, rfl, rfl, rfl, by simp, by simp⟩
    | succ k ih =>
      intro hk
      rw [forRangeM_succ]
      rcases ih (by omega) with ⟨A', hA, hn, hm, h1, h2⟩ | ⟨h1, h2⟩
      · rw [hA, Res.ok_bind]
        unfold bdInvertRow
        rw [h2 k (le_refl k), diag_get H (by omega), Res.ok_bind]
        rcases invert_cases I (A.entry k k) with ⟨b, hb, hb'⟩ | ⟨hb, hb'⟩
        · left
          have hmod : (A.row k).modify k (fun _ => b) = .ok [(k, b)] := by
            rw [Row.modify_of_mem (A.row k) (H.2 k (by omega)).1 (b := A.entry k k) (by rw [hrow k (by omega)]; simp), hrow k (by omega)]
            simp
          refine ⟨{ A' with row := fun j => if j = k then [(k, b)] else A'.row j }, ?_, hn, hm, ?_, ?_⟩
          · rw [hb, Res.ok_bind, hmod]
            rfl
          · intro i hi
            by_cases e : i = k
            · subst e; exact ⟨b, by simp, hb'⟩
            · obtain ⟨c, hc⟩ := h1 i (by omega)
              exact ⟨c, by simp [e, hc.1], hc.2⟩
          · intro i hi
            simp only [show i ≠ k by omega, if_false]
            exact h2 i (by omega)
        · right
          rw [hb]
          refine ⟨fun h => ?_, rfl⟩
          obtain ⟨c, hc⟩ := h k (by omega)
          exact hb' c hc
      · right
        rw [h2]
        exact ⟨fun h => h1 fun i hi => h i (by omega), rfl⟩
  unfold bdInvert
  rcases key A.n (le_refl _) with ⟨A', hA, hn, hm, h1, h2⟩ | h
  · left
    refine ⟨A', hA, ⟨by rw [hm, hn, H.1], ?_⟩, hn, ?_⟩
    · intro i hi
      obtain ⟨b, hb, -⟩ := h1 i (by omega)
      rw [hb]
      refine ⟨by simp [Row.Asc], fun j => ?_⟩
      simp [Row.Has]
    · intro i hi
      obtain ⟨b, hb, hb'⟩ := h1 i hi
      have : A'.entry i i = b := by simp [SpMat.entry, hb, Row.val]
      rw [this]; exact hb'
  · exact .inr h

end Solve

/-- `BTDMatrix::solve` on an empty matrix throws `std::length_error`: `c(N()-1)` wraps around. -/
theorem C37_empty_solve_counterexample {R V : Type} [Ring R] [AddCommGroup V] [Module R V] (I : BlockInv R) (A : SpMat R)
    (h : A.n = 0) (rhs x : Nat → V) : thomas I A rhs x = .throw .lengthError := by
  simp [thomas, h]

/-- `BTDMatrix A; A.setSize(2);` throws: the default constructor leaves the build mode unset. -/
theorem C37_default_setSize_counterexample :
    (match (btdSetSize 2 : BC Int Unit) ⟨⟨[], [], 77, 0, 0⟩, empty⟩ with
      | .throw e _ => decide (e = .bcrsMatrixError)
      | _ => false) = true := by
  decide +kernel

/-- Non-vacuity: a 3x3 system. -/
example : let A : SpMat ℚ := { n := 3, m := 3, row := fun i => if i = 0 then [(0, 2), (1, 1)] else if i = 1 then [(0, 1), (1, 3), (2, 1)]
      else [(1, 1), (2, 2)] }
    (match thomas numInv A (fun _ => (1 : ℚ)) (fun _ => 7) with
      | .ok x => decide (2 * x 0 + x 1 = 1 ∧ x 0 + 3 * x 1 + x 2 = 1 ∧ x 1 + 2 * x 2 = 1 ∧ x 3 = 7)
      | _ => false) = true := by
  decide +kernel

end Istl
