import Verif.Spec.IndexSet
import Verif.Lemmas.MatMat
import Verif.Lemmas.BcrsRandom2
import Verif.Props.C37

/-! # C13: MatrixIndexSet -/

namespace Istl
namespace IndexSet
open Bcrs MatMat
variable {α B : Type}

theorem lb_asc (l : List Nat) (h : l.Pairwise (· < ·)) (v : Nat) : lowerBound l l.length v = .ok (l.takeWhile (· < v)).length :=
  lowerBound_eq l v (h.imp le_of_lt)

theorem flatInsert_spec (l : List Nat) (h : l.Pairwise (· < ·)) (v : Nat) :
    ∃ l', flatInsert l v = .ok l' ∧ l'.Pairwise (· < ·) ∧ ∀ x, x ∈ l' ↔ x = v ∨ x ∈ l := by
  have hf := found_iff (v + 1) 0 v l h (by omega)
  simp only [List.replicate_zero, List.append_nil, idxFound] at hf
  have e : l.take (l.takeWhile (· < v)).length ++ v :: l.drop (l.takeWhile (· < v)).length = insAsc v l := by
    unfold insAsc
    congr 1
    · exact (List.prefix_iff_eq_take.mp (List.takeWhile_prefix _)).symm
    · congr 1
      have h2 := List.takeWhile_append_dropWhile (p := fun x => decide (x < v)) (l := l)
      calc l.drop (l.takeWhile (· < v)).length
          = (l.takeWhile (· < v) ++ l.dropWhile (· < v)).drop (l.takeWhile (· < v)).length := by rw [h2]
        _ = _ := List.drop_left
  unfold flatInsert
  rw [lb_asc l h v, Res.ok_bind]
  by_cases hm : v ∈ l
  · simp only [hm, decide_true] at hf
    split at hf
    · cases hf
    · next hne =>
      split at hf
      · next x hx =>
        simp only [Res.ok.injEq, decide_eq_true_eq] at hf
        refine ⟨l, ?_, h, fun x => ?_⟩
        · rw [if_neg hne]
          simp [rd, hx, hf]
        · constructor
          · exact fun h => .inr h
          · rintro (rfl | h)
            · exact hm
            · exact h
      · cases hf
  · simp only [hm, decide_false] at hf
    refine ⟨insAsc v l, ?_, insAsc_asc v l h hm, fun x => mem_insAsc v l x⟩
    split at hf
    · next he => rw [if_pos he, e]
    · next hne =>
      split at hf
      · next x hx =>
        simp only [Res.ok.injEq, decide_eq_false_iff_not] at hf
        rw [if_neg hne, e]
        simp [rd, hx, hf]
      · cases hf

theorem flatContains_spec (l : List Nat) (h : l.Pairwise (· < ·)) (v : Nat) : flatContains l v = .ok (decide (v ∈ l)) := by
  have hf := found_iff (v + 1) 0 v l h (by omega)
  simp only [List.replicate_zero, List.append_nil, idxFound] at hf
  unfold flatContains
  rw [lb_asc l h v, Res.ok_bind]
  split at hf
  · next he => rw [if_pos he, ← hf]
  · next hne =>
    split at hf
    · next x hx =>
      rw [if_neg hne]
      simp only [Res.ok.injEq] at hf
      simp only [rd, hx, Res.ok_bind, ← hf, Res.ok.injEq]
      have : v ≤ x := by
        have hd := dropWhile_ge v l h x
        apply hd
        have : l[(l.takeWhile (· < v)).length]? = (l.dropWhile (· < v))[0]? := by
          conv_lhs => rw [← List.takeWhile_append_dropWhile (p := fun x => decide (x < v)) (l := l)]
          rw [List.getElem?_append_right (by simp)]
          simp
        rw [this] at hx
        exact List.mem_of_getElem? hx
      congr 1
      simp only [eq_iff_iff]
      omega
    · cases hf

/-- `add` on one row, whatever its representation: the row stays ascending and holds one more column. -/
theorem addRow_spec (maxV : Nat) (r : RowSet) (S : Finset Nat) (h : r.elems = S.sort) (v : Nat) :
    ∃ r', addRow maxV r v = .ok r' ∧ r'.elems = (insert v S).sort := by
  have hasc : r.elems.Pairwise (· < ·) := by rw [h]; exact sort_asc S
  have hmem : ∀ x, x ∈ r.elems ↔ x ∈ S := fun x => by rw [h]; exact Finset.mem_sort (fun a b => a ≤ b)
  have fin : ∀ l' : List Nat, l'.Pairwise (· < ·) → (∀ x, x ∈ l' ↔ x = v ∨ x ∈ r.elems) → l' = (insert v S).sort := by
    intro l' h1 h2
    apply asc_eq_sort _ _ h1
    intro x
    rw [h2, hmem, Finset.mem_insert]
  cases r with
  | set l =>
    obtain ⟨h1, h2⟩ := setInsert_spec v l hasc
    exact ⟨_, rfl, fin _ h1 h2⟩
  | flat l =>
    unfold addRow
    by_cases hl : l.length < maxV
    · obtain ⟨l', h0, h1, h2⟩ := flatInsert_spec l hasc v
      exact ⟨.flat l', by simp only [if_pos hl, h0, Res.ok_bind], fin _ h1 h2⟩
    · simp only [if_neg hl, flatContains_spec l hasc v, Res.ok_bind]
      by_cases hv : v ∈ l
      · refine ⟨.flat l, by simp [hv], ?_⟩
        apply fin l hasc
        intro x
        constructor
        · exact fun h => .inr h
        · rintro (rfl | h)
          · exact hv
          · exact h
      · obtain ⟨h1, h2⟩ := setInsert_spec v l hasc
        exact ⟨.set (setInsert v l), by simp [hv], fin _ h1 h2⟩

/-- The object stores the pattern. -/
structure Rep (X : Obj) (p : Pattern) : Prop where
  rows : X.rows = p.rows
  cols : X.cols = p.cols
  len : X.indices.length = p.rows
  row : ∀ i (h : i < X.indices.length), X.indices[i].elems = (p.S i).sort
  out : ∀ i, p.rows ≤ i → p.S i = ∅

theorem Rep.ctor (r c maxV : Nat) : Rep (ctor r c maxV) (.empty r c) :=
  ⟨rfl, rfl, by simp [IndexSet.ctor, Pattern.empty], fun i h => by simp [IndexSet.ctor, Pattern.empty, RowSet.elems], fun _ _ => rfl⟩

theorem Rep.resize {X : Obj} {p : Pattern} (H : Rep X p) (r c : Nat) : Rep (X.resize r c) (Op.apply (α := α) p (.resize r c)) := by
  refine ⟨rfl, rfl, ?_, ?_, ?_⟩
  · simp only [Obj.resize, Op.apply, List.length_append, List.length_take, List.length_replicate]
    omega
  · intro i h
    simp only [Obj.resize, List.length_append, List.length_take, List.length_replicate] at h
    have hir : i < r := by omega
    simp only [Obj.resize, Op.apply, if_pos hir]
    by_cases hi : i < X.indices.length
    · rw [List.getElem_append_left (by rw [List.length_take]; omega), List.getElem_take, H.row i hi]
    · rw [List.getElem_append_right (by rw [List.length_take]; omega), List.getElem_replicate, H.out i (by rw [← H.len]; omega)]
      simp [RowSet.elems]
  · intro i hi
    simp only [Op.apply] at hi ⊢
    rw [if_neg (by omega)]

theorem Rep.add {X : Obj} {p : Pattern} (H : Rep X p) {i : Nat} (hi : i < p.rows) (j : Nat) :
    ∃ X', X.add i j = .ok X' ∧ Rep X' (Op.apply (α := α) p (.add i j)) ∧ X'.maxV = X.maxV := by
  have hil : i < X.indices.length := by rw [H.len]; exact hi
  obtain ⟨r', h1, h2⟩ := addRow_spec X.maxV _ _ (H.row i hil) j
  refine ⟨{ X with indices := X.indices.set i r' }, ?_, ⟨H.rows, H.cols, by simpa [Op.apply] using H.len, ?_, ?_⟩, rfl⟩
  · simp only [Obj.add, List.getElem?_eq_getElem hil, h1, Res.ok_bind]
  · intro k hk
    simp only [List.length_set] at hk
    simp only [List.getElem_set, Op.apply]
    by_cases hki : i = k
    · subst hki; simp [h2]
    · rw [if_neg hki, if_neg (Ne.symm hki)]
      exact H.row k hk
  · intro k hk
    simp only [Op.apply] at hk ⊢
    rw [if_neg (by omega)]
    exact H.out k hk

theorem Rep.adds {X : Obj} {p : Pattern} (H : Rep X p) (L : List (Nat × Nat)) (hL : ∀ c ∈ L, c.1 < p.rows) :
    ∃ X' p', L.foldlM (fun X c => X.add c.1 c.2) X = .ok X' ∧ Rep X' p' ∧ p'.rows = p.rows ∧ p'.cols = p.cols ∧
      ∀ k j, j ∈ p'.S k ↔ j ∈ p.S k ∨ (k, j) ∈ L := by
  induction L generalizing X p with
  | nil => exact ⟨X, p, rfl, H, rfl, rfl, by simp⟩
  | cons c L ih =>
    obtain ⟨X1, h1, H1, -⟩ := H.add (α := Unit) (hL c (by simp)) c.2
    obtain ⟨X', p', h2, H2, h3, h4, h5⟩ := ih H1 (fun c' hc' => by simpa [Op.apply] using hL c' (by simp [hc']))
    refine ⟨X', p', by rw [List.foldlM_cons, h1, Res.ok_bind, h2], H2, by simpa [Op.apply] using h3, by simpa [Op.apply] using h4, ?_⟩
    intro k j
    rw [h5]
    simp only [Op.apply, List.mem_cons]
    have : (k, j) = c ↔ k = c.1 ∧ j = c.2 := by rw [Prod.ext_iff]
    rw [this]
    by_cases hk : k = c.1
    · simp [hk]; tauto
    · simp [hk]

theorem Rep.imp {X : Obj} {p : Pattern} (H : Rep X p) (A : SpMat α) (ro co : Nat) (hv : Op.Valid p (.imp A ro co)) :
    ∃ X', X.import A ro co = .ok X' ∧ Rep X' (Op.apply p (.imp A ro co)) := by
  let L := (List.range A.n).flatMap fun i => (A.row i).map fun e => (i + ro, e.1 + co)
  have e : X.import A ro co = L.foldlM (fun X c => X.add c.1 c.2) X := by
    simp only [L]
    rw [foldlM_flatMap]
    unfold Obj.import forRangeM
    apply foldlM_congr_mem
    intro i _ s
    rw [List.foldlM_map]
  have hmem : ∀ k j, (k, j) ∈ L ↔ ro ≤ k ∧ k < A.n + ro ∧ ∃ e ∈ A.row (k - ro), e.1 + co = j := by
    intro k j
    simp only [L, List.mem_flatMap, List.mem_range, List.mem_map, Prod.mk.injEq]
    constructor
    · rintro ⟨i, hi, e, he, rfl, rfl⟩
      exact ⟨by omega, by omega, e, by simpa using he, rfl⟩
    · rintro ⟨h1, h2, e, he, rfl⟩
      exact ⟨k - ro, by omega, e, he, by omega, rfl⟩
  obtain ⟨X', p', h1, H1, h3, h4, h5⟩ := H.adds L (by
    intro c hc
    obtain ⟨h1, h2, e, he, -⟩ := (hmem c.1 c.2).mp hc
    have := hv (c.1 - ro) (by omega) (by intro h; rw [h] at he; simp at he)
    omega)
  have hS : ∀ k, p'.S k = (Op.apply p (.imp A ro co)).S k := by
    intro k
    ext j
    rw [h5, hmem]
    simp only [Op.apply]
    by_cases hk : ro ≤ k ∧ k < A.n + ro
    · simp [hk]
    · rw [if_neg hk]; tauto
  refine ⟨X', by rw [e, h1], ⟨by rw [H1.rows, h3]; rfl, by rw [H1.cols, h4]; rfl, by rw [H1.len, h3]; rfl, ?_, ?_⟩⟩
  · intro i h
    rw [H1.row i h, hS]
  · intro i h
    rw [← hS]
    exact H1.out i (by rw [h3]; exact h)

theorem Rep.runAll {X : Obj} {p : Pattern} (H : Rep X p) (ops : List (Op α)) (hv : AllValid p ops) :
    ∃ X', runAll X ops = .ok X' ∧ Rep X' (after p ops) := by
  induction ops generalizing X p with
  | nil => exact ⟨X, rfl, H⟩
  | cons op ops ih =>
    obtain ⟨h1, h2⟩ := hv
    have : ∃ X1, op.run X = .ok X1 ∧ Rep X1 (op.apply p) := by
      cases op with
      | resize r c => exact ⟨_, rfl, H.resize r c⟩
      | add i j =>
        obtain ⟨X1, a, b, -⟩ := H.add (α := α) h1 j
        exact ⟨X1, a, b⟩
      | imp A ro co => exact H.imp A ro co h1
    obtain ⟨X1, e1, H1⟩ := this
    obtain ⟨X', e2, H2⟩ := ih H1 h2
    exact ⟨X', by rw [IndexSet.runAll, List.foldlM_cons, e1, Res.ok_bind]; exact e2, H2⟩

theorem Rep.size {X : Obj} {p : Pattern} (H : Rep X p) : X.size = .ok (∑ i ∈ Finset.range p.rows, (p.S i).card) := by
  unfold Obj.size
  have : ∀ n, n ≤ p.rows → forRangeM n (fun i e => do
      let k ← X.rowsize i
      .ok (e + k)) 0 = .ok (∑ i ∈ Finset.range n, (p.S i).card) := by
    intro n
    induction n with
    | zero => intro _; rfl
    | succ n ih =>
      intro hn
      have hl : n < X.indices.length := by rw [H.len]; omega
      rw [forRangeM_succ, ih (by omega), Res.ok_bind, Finset.sum_range_succ]
      simp [Obj.rowsize, List.getElem?_eq_getElem hl, H.row n hl]
  rw [H.rows]
  exact this _ le_rfl

/-! ### export -/

/-- A run of calls that each preserve an invariant indexed by the number of finished rows. -/
theorem loopRows_inv (f : Nat → BC B Unit) (I : Nat → St B → Prop) (n : Nat)
    (step : ∀ i s, i < n → I i s → ∃ s', f i s = .ok () s' ∧ I (i + 1) s') :
    ∀ k, k ≤ n → ∀ s, I (n - k) s → ∃ s', loopRows f ((List.range n).drop (n - k)) s = .ok () s' ∧ I n s' := by
  intro k
  induction k with
  | zero =>
    intro _ s hs
    exact ⟨s, by rw [Nat.sub_zero, List.drop_of_length_le (by simp)]; rfl, by simpa using hs⟩
  | succ k ih =>
    intro hk s hs
    obtain ⟨s1, h1, h2⟩ := step (n - (k + 1)) s (by omega) hs
    obtain ⟨s', h3, h4⟩ := ih (by omega) s1 (by
      have : n - (k + 1) + 1 = n - k := by omega
      rw [← this]; exact h2)
    refine ⟨s', ?_, h4⟩
    rw [List.drop_eq_getElem_cons (by simp; omega)]
    simp only [loopRows, List.getElem_range]
    rw [Cmd.bind_ok h1]
    have : n - (k + 1) + 1 = n - k := by omega
    rw [this]; exact h3

theorem loopRows_range (f : Nat → BC B Unit) (I : Nat → St B → Prop) (n : Nat)
    (step : ∀ i s, i < n → I i s → ∃ s', f i s = .ok () s' ∧ I (i + 1) s') (s : St B) (h0 : I 0 s) :
    ∃ s', loopRows f (List.range n) s = .ok () s' ∧ I n s' := by
  have := loopRows_inv f I n step n le_rfl s (by simpa using h0)
  simpa using this

theorem setup_random (h : Heap B) (bm : BuildMode) (hbm : bm ≠ .implicit) (n m : Nat) :
    ∃ s, (do setSize n m 0; setBuildMode .random : BC B Unit) ⟨h, empty bm⟩ = .ok () s ∧
      Sizing s n m 0 (List.replicate n ⟨0, none, none⟩) ∧ s.h.dflt = h.dflt := by
  by_cases h1 : n = 0 <;> cases bm <;>
    simp [setSize, deallocate, setBuildMode, allocate, setO, Cmd.bind_def, empty, allocateRows, allocateIdx, h1,
      Nat.pos_of_ne_zero, Cmd.get] at hbm ⊢
  all_goals constructor <;> simp [RowsAre, h1]

theorem exportSizes_eq {X : Obj} {p : Pattern} (H : Rep X p) {i : Nat} (hi : i < p.rows) (s : St B) :
    exportSizes X i s = setrowsize i (p.S i).card s := by
  have hl : i < X.indices.length := by rw [H.len]; exact hi
  unfold exportSizes
  have : X.rowsize i = .ok (p.S i).card := by simp [Obj.rowsize, List.getElem?_eq_getElem hl, H.row i hl]
  rw [this, Cmd.bind_ok (Cmd.lift_ok _ s)]

theorem loopRows_sizes {X : Obj} {p : Pattern} (H : Rep X p) (L : List Nat) (hL : ∀ i ∈ L, i < p.rows) (s : St B) :
    loopRows (exportSizes X) L s = runSizes (L.map fun i => SizeOp.set i (p.S i).card) s := by
  induction L generalizing s with
  | nil => rfl
  | cons i L ih =>
    simp only [loopRows, List.map_cons, runSizes, SizeOp.run, Cmd.bind_def]
    rw [exportSizes_eq H (hL i (by simp))]
    cases setrowsize i (p.S i).card s with
    | ok a s' => exact ih (fun i hi => hL i (by simp [hi])) s'
    | throw e s' => rfl
    | ub => rfl

theorem mem_takeWhile_asc (l : List Nat) (h : l.Pairwise (· < ·)) (m x : Nat) : x ∈ l.takeWhile (· < m) ↔ x ∈ l ∧ x < m := by
  constructor
  · intro hx
    exact ⟨(List.takeWhile_sublist _).subset hx, by simpa using List.mem_takeWhile_imp hx⟩
  · rintro ⟨h1, h2⟩
    rw [← List.takeWhile_append_dropWhile (p := fun x => decide (x < m)) (l := l), List.mem_append] at h1
    rcases h1 with h1 | h1
    · exact h1
    · have := dropWhile_ge m l h x h1
      omega

/-- `exportIdx` of an object that stores the pattern `p`. -/
theorem Rep.exportIdx {X : Obj} {p : Pattern} (H : Rep X p) (h : Heap B) (bm : BuildMode) (hbm : bm ≠ .implicit) :
    ∃ s rows, exportIdx X ⟨h, Bcrs.empty bm⟩ = .ok () s ∧ s.o.ready = .built ∧ view s = .ok (p.rows, p.cols, rows) ∧ rows.length = p.rows ∧
      ∀ i (hi : i < rows.length), rows[i].map Prod.fst = ((p.S i).filter (· < p.cols)).sort := by
  obtain ⟨s1, e1, H1, -⟩ := setup_random h bm hbm p.rows p.cols
  obtain ⟨s2, ws2, e2, H2, hsz⟩ := runSizes_sizing H1 (by intro w hw; rw [List.mem_replicate] at hw; rw [hw.2])
    ((List.range p.rows).map fun i => SizeOp.set i (p.S i).card) (by
      intro op hop
      simp only [List.mem_map, List.mem_range] at hop
      obtain ⟨i, hi, rfl⟩ := hop
      exact hi)
  have hl2 : ws2.length = p.rows := by rw [H2.rows.1, H2.hn]
  obtain ⟨s3, rest, ws3, e3, H3⟩ := endrowsizes_sized H2 (.inl rfl)
  -- copy the rows
  let tgt : Nat → List (List Nat) := fun k => (List.range p.rows).map fun i => if i < k then (p.S i).sort else List.replicate (p.S i).card p.cols
  have h0 : (ws2.map fun w => List.replicate w.sz p.cols) = tgt 0 := by
    apply List.ext_getElem
    · simp [tgt, hl2]
    · intro i h1 h2
      simp only [List.length_map] at h1
      simp only [List.getElem_map, tgt, List.getElem_range, Nat.not_lt_zero, if_false]
      rw [hsz i h1, announced_map_set, if_pos (by omega)]
  rw [h0] at H3
  obtain ⟨s4, e4, H4⟩ := loopRows_range (exportRow X) (fun k s => Sized s p.rows p.cols (tgt k) rest ws3) p.rows (by
    intro i s hi Hs
    have hl : i < X.indices.length := by rw [H.len]; exact hi
    have hit : i < (tgt i).length := by simp [tgt, hi]
    obtain ⟨s', g1, -, -, -, g2⟩ := setIndicesNoSort_sized Hs hit (p.S i).sort (by simp [tgt])
    refine ⟨s', ?_, ?_⟩
    · unfold exportRow
      have : X.columnIndices i = .ok (p.S i).sort := by simp [Obj.columnIndices, List.getElem?_eq_getElem hl, H.row i hl]
      rw [this, Cmd.bind_ok (Cmd.lift_ok _ s), g1]
    · have : (tgt i).set i (p.S i).sort = tgt (i + 1) := by
        apply List.ext_getElem
        · simp [tgt]
        · intro k h1 h2
          simp only [tgt, List.getElem_set, List.getElem_map, List.getElem_range]
          by_cases hk : i = k
          · subst hk; simp
          · have : k < i + 1 ↔ k < i := by omega
            simp [hk, this]
      rw [← this]; exact g2) s3 H3
  have hasc : ∀ i, (p.S i).sort.Pairwise (· < ·) := fun i => sort_asc _
  obtain ⟨s5, rows, e5, h1, h2, h3, h4, -⟩ := endindices_view H4 (by simp [tgt])
    ((List.range p.rows).map fun i => ((p.S i).sort (fun a b => a ≤ b)).takeWhile (· < p.cols)) (fun i => ((p.S i).sort (fun a b => a ≤ b)).dropWhile (· < p.cols))
    (by
      intro i
      rw [List.takeWhile_eq_nil_iff]
      intro hpos
      have hm := List.getElem_mem hpos
      have := dropWhile_ge p.cols _ (hasc i) _ hm
      simpa using this)
    (by simp)
    (by
      intro i h1 h2
      simp only [List.length_map, List.length_range] at h2
      simp only [tgt, List.getElem_map, List.getElem_range, if_pos h2]
      exact (List.takeWhile_append_dropWhile).symm)
    (by
      intro c hc x hx
      simp only [List.mem_map, List.mem_range] at hc
      obtain ⟨i, -, rfl⟩ := hc
      simpa using List.mem_takeWhile_imp hx)
  refine ⟨s5, rows, ?_, h1, h2, h3, ?_⟩
  · unfold IndexSet.exportIdx
    have e2' : loopRows (exportSizes X) (List.range X.rows) s1 = .ok () s2 := by
      rw [loopRows_sizes H _ (by intro i hi; rw [List.mem_range, H.rows] at hi; exact hi), H.rows, e2]
    rw [H.rows, H.cols]
    rw [H.rows] at e2'
    simp only [Cmd.bind_def] at e1 ⊢
    cases hs : setSize p.rows p.cols 0 ⟨h, Bcrs.empty bm⟩ with
    | ok a t =>
      rw [hs] at e1
      simp only at e1 ⊢
      rw [e1]
      simp only [e2', e3, e4, e5]
    | throw e t => rw [hs] at e1; cases e1
    | ub => rw [hs] at e1; cases e1
  · intro i hi
    have hip : i < p.rows := by omega
    rw [h4 i hi (by simpa using hip), List.map_map]
    simp only [List.getElem_map, List.getElem_range]
    have : (Prod.fst ∘ fun j : Nat => (j, s4.h.dflt)) = id := rfl
    rw [this, List.map_id]
    apply asc_eq_sort
    · exact (hasc i).sublist (List.takeWhile_sublist _)
    · intro x
      rw [mem_takeWhile_asc _ (hasc i), Finset.mem_sort, Finset.mem_filter]

/-- For every history of `resize`, `add` and `import` calls on existing rows, every threshold `maxVectorSize` and every starting size, no call
fails; afterwards every row holds exactly the collected columns in ascending order, `rowsize` and `size()` count them, and `exportIdx` turns
any empty matrix (not in implicit mode) into a built one whose row `i` holds exactly the collected valid columns, ascending. -/
theorem C13_export (r c maxV : Nat) (ops : List (Op α)) (hv : AllValid (.empty r c) ops) (h : Heap B) (bm : BuildMode) (hbm : bm ≠ .implicit) :
    ∃ X, runAll (ctor r c maxV) ops = .ok X ∧
      (∀ i, i < (after (.empty r c) ops).rows → X.columnIndices i = .ok ((after (.empty r c) ops).S i).sort ∧
        X.rowsize i = .ok ((after (.empty r c) ops).S i).card) ∧
      X.size = .ok (∑ i ∈ Finset.range (after (.empty r c) ops).rows, ((after (.empty r c) ops).S i).card) ∧
      ∃ s rows, exportIdx X ⟨h, Bcrs.empty bm⟩ = .ok () s ∧ s.o.ready = .built ∧
        view s = .ok ((after (.empty r c) ops).rows, (after (.empty r c) ops).cols, rows) ∧ rows.length = (after (.empty r c) ops).rows ∧
        ∀ i (hi : i < rows.length), rows[i].map Prod.fst =
          (((after (.empty r c) ops).S i).filter (· < (after (.empty r c) ops).cols)).sort := by
  obtain ⟨X, h1, H⟩ := (Rep.ctor r c maxV).runAll ops hv
  refine ⟨X, h1, ?_, H.size, H.exportIdx h bm hbm⟩
  intro i hi
  have hl : i < X.indices.length := by rw [H.len]; exact hi
  constructor <;> simp [Obj.columnIndices, Obj.rowsize, List.getElem?_eq_getElem hl, H.row i hl]

/-- A default constructed index set behaves like one of size 0 x 0: after any history beginning with a `resize` it exports the collected
columns. -/
theorem C13_default (maxV : Nat) (ops : List (Op α)) (hv : AllValid (.empty 0 0) ops) (h : Heap B) (bm : BuildMode) (hbm : bm ≠ .implicit) :
    ∃ X, runAll (ctorEmpty maxV) ops = .ok X ∧
      ∃ s rows, exportIdx X ⟨h, Bcrs.empty bm⟩ = .ok () s ∧ s.o.ready = .built ∧
        view s = .ok ((after (.empty 0 0) ops).rows, (after (.empty 0 0) ops).cols, rows) ∧ rows.length = (after (.empty 0 0) ops).rows ∧
        ∀ i (hi : i < rows.length), rows[i].map Prod.fst =
          (((after (.empty 0 0) ops).S i).filter (· < (after (.empty 0 0) ops).cols)).sort := by
  obtain ⟨X, h1, -, -, h4⟩ := C13_export 0 0 maxV ops hv h bm hbm
  exact ⟨X, h1, h4⟩

/-- The threshold does not influence anything observable. -/
theorem C13_threshold_irrelevant (r c maxV maxV' : Nat) (ops : List (Op α)) (hv : AllValid (.empty r c) ops) :
    ∃ X X', runAll (ctor r c maxV) ops = .ok X ∧ runAll (ctor r c maxV') ops = .ok X' ∧ X.rows = X'.rows ∧ X.cols = X'.cols ∧
      X.size = X'.size ∧ ∀ i, X.columnIndices i = X'.columnIndices i := by
  obtain ⟨X, h1, H⟩ := (Rep.ctor r c maxV).runAll ops hv
  obtain ⟨X', h1', H'⟩ := (Rep.ctor r c maxV').runAll ops hv
  refine ⟨X, X', h1, h1', by rw [H.rows, H'.rows], by rw [H.cols, H'.cols], by rw [H.size, H'.size], ?_⟩
  intro i
  by_cases hi : i < (after (.empty r c) ops).rows
  · have hl : i < X.indices.length := by rw [H.len]; exact hi
    have hl' : i < X'.indices.length := by rw [H'.len]; exact hi
    simp [Obj.columnIndices, List.getElem?_eq_getElem hl, List.getElem?_eq_getElem hl', H.row i hl, H'.row i hl']
  · have hl : X.indices[i]? = none := by rw [List.getElem?_eq_none_iff, H.len]; omega
    have hl' : X'.indices[i]? = none := by rw [List.getElem?_eq_none_iff, H'.len]; omega
    simp [Obj.columnIndices, hl, hl']

/-- A history with repeated additions, an import with offsets, a column that is not valid and a shrinking `resize`; with `maxVectorSize = 1`
row 0 switches its representation. -/
def demoOps : List (Op Unit) :=
  [.add 0 4, .add 0 1, .add 0 4, .imp { n := 1, m := 2, row := fun _ => [(0, ()), (1, ())] } 1 2, .add 2 9, .add 0 7, .resize 2 5]

example : AllValid (.empty 3 5) demoOps ∧ (after (.empty 3 5) demoOps).S 0 = {1, 4, 7} ∧ (after (.empty 3 5) demoOps).S 1 = {2, 3} := by
  refine ⟨by simp [demoOps, AllValid, Op.Valid, Op.apply, Pattern.empty], ?_, ?_⟩ <;> decide

example : (match runAll (ctor 3 5 1) demoOps with
    | .ok X => decide (X.indices = [.set [1, 4, 7], .set [2, 3]])
    | _ => false) = true := by decide +kernel

end IndexSet
end Istl
