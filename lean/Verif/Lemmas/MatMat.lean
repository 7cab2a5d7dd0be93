import Verif.Model.MatMat
import Verif.Lemmas.SpMat
import Verif.Lemmas.Gsetc
import Verif.Props.C04
import Verif.Spec.SpMat

/-! Helper lemmas about sparse matrix products. -/

namespace Istl
namespace MatMat
open Bcrs
variable {α β γ S : Type}

/-! ### Traversals as lists of calls -/

/-- calls of the functor in variant 0 -/
def calls0 (A : SpMat α) (B : SpMat β) : List ((α × β) × Nat × Nat) :=
  (List.range A.n).flatMap fun i => (A.row i).flatMap fun e => (B.row e.1).map fun f => ((e.2, f.2), i, f.1)

/-- calls of the functor in variant 1 -/
def calls1 (A : SpMat α) (B : SpMat β) : List ((α × β) × Nat × Nat) :=
  (List.range A.n).flatMap fun i => (A.row i).flatMap fun e => (B.row i).map fun f => ((e.2, f.2), e.1, f.1)

theorem foldlM_flatMap {E F : Type} (g : E → List F) (f : S → F → Res S) (l : List E) (s : S) :
    (l.flatMap g).foldlM f s = l.foldlM (fun s e => (g e).foldlM f s) s := by
  induction l generalizing s with
  | nil => rfl
  | cons e l ih =>
    rw [List.flatMap_cons, List.foldlM_append, List.foldlM_cons]
    congr 1
    funext t
    exact ih t

theorem foldlM_congr_mem {E : Type} {f g : S → E → Res S} (l : List E) (h : ∀ e ∈ l, ∀ s, f s e = g s e) (s : S) :
    l.foldlM f s = l.foldlM g s := by
  induction l generalizing s with
  | nil => rfl
  | cons e l ih =>
    rw [List.foldlM_cons, List.foldlM_cons, h e (by simp)]
    congr 1
    funext t
    exact ih (fun e he => h e (by simp [he])) t

theorem traverse0_eq (func : α → β → Nat → Nat → S → Res S) (A : SpMat α) (B : SpMat β) (hA : A.WF) (hs : A.m = B.n) (s : S) :
    traverse0 func A B s = (calls0 A B).foldlM (fun s c => func c.1.1 c.1.2 c.2.1 c.2.2 s) s := by
  unfold traverse0 calls0 forRangeM
  rw [if_neg (by simpa using hs), foldlM_flatMap]
  apply foldlM_congr_mem
  intro i hi s
  rw [foldlM_flatMap]
  apply foldlM_congr_mem
  intro e he s
  have := (hA i (List.mem_range.mp hi)).2 e he
  rw [rowAt, if_pos (by omega), Res.ok_bind, List.foldlM_map]

theorem traverse1_eq (func : α → β → Nat → Nat → S → Res S) (A : SpMat α) (B : SpMat β) (hs : A.n = B.n) (s : S) :
    traverse1 func A B s = (calls1 A B).foldlM (fun s c => func c.1.1 c.1.2 c.2.1 c.2.2 s) s := by
  unfold traverse1 calls1 forRangeM
  rw [if_neg (by simpa using hs), foldlM_flatMap]
  apply foldlM_congr_mem
  intro i hi s
  rw [foldlM_flatMap]
  apply foldlM_congr_mem
  intro e he s
  have := List.mem_range.mp hi
  rw [rowAt, if_pos (by omega), Res.ok_bind, List.foldlM_map]

theorem setInsert_spec (j : Nat) (l : List Nat) (h : l.Pairwise (· < ·)) :
    (setInsert j l).Pairwise (· < ·) ∧ ∀ x, x ∈ setInsert j l ↔ x = j ∨ x ∈ l :=
  insert_pat { i := 0, nnz := 0, pat := l, cur := none } j h

theorem insertEntry_fold (rows : Nat) (L : List ((α × β) × Nat × Nat)) (hL : ∀ c ∈ L, c.2.1 < rows) (e0 : Nat → List Nat)
    (h0 : ∀ i, (e0 i).Pairwise (· < ·)) :
    ∃ e, L.foldlM (fun s c => insertEntry rows c.1.1 c.1.2 c.2.1 c.2.2 s) e0 = .ok e ∧ (∀ i, (e i).Pairwise (· < ·)) ∧
      ∀ i j, j ∈ e i ↔ j ∈ e0 i ∨ ∃ c ∈ L, c.2 = (i, j) := by
  induction L generalizing e0 with
  | nil => exact ⟨e0, rfl, h0, by simp⟩
  | cons c L ih =>
    obtain ⟨g1, g2⟩ := setInsert_spec c.2.2 (e0 c.2.1) (h0 c.2.1)
    obtain ⟨e, h1, h2, h3⟩ := ih (fun c' h => hL c' (by simp [h])) (upd e0 c.2.1 (setInsert c.2.2 (e0 c.2.1))) (by
      intro i
      unfold upd
      split
      · exact g1
      · exact h0 i)
    refine ⟨e, ?_, h2, ?_⟩
    · rw [List.foldlM_cons, insertEntry, if_pos (hL c (by simp)), Res.ok_bind, h1]
    · intro i j
      rw [h3 i j]
      have : j ∈ upd e0 c.2.1 (setInsert c.2.2 (e0 c.2.1)) i ↔ j ∈ e0 i ∨ c.2 = (i, j) := by
        unfold upd
        split
        · next h =>
          subst h
          rw [g2 j]
          have : c.2 = (c.2.1, j) ↔ j = c.2.2 := by
            constructor
            · intro h; rw [Prod.ext_iff] at h; exact h.2.symm
            · intro h; rw [h]
          rw [this]; tauto
        · next h =>
          have : ¬ c.2 = (i, j) := fun hc => h (by rw [hc])
          tauto
      rw [this]
      simp only [List.mem_cons, exists_eq_or_imp]
      tauto

/-! ### Accumulation by position -/

theorem modify_val {r : Row γ} [AddCommGroup γ] (hs : r.Asc) {j : Nat} (h : r.Has j) (v : γ) :
    ∃ r', r.modify j (fun c => c + v) = .ok r' ∧ r'.map Prod.fst = r.map Prod.fst ∧
      ∀ k, r'.val k = r.val k + if k = j then v else 0 := by
  obtain ⟨b, hb⟩ := h
  refine ⟨_, Row.modify_of_mem r hs hb _, ?_, ?_⟩
  · rw [List.map_map]
    apply List.map_congr_left
    intro e _
    simp only [Function.comp]
    split <;> rfl
  · have hs' : Row.Asc (r.map fun e => if e.1 = j then (e.1, e.2 + v) else e) := by
      unfold Row.Asc at hs ⊢
      rw [List.map_map]
      have : (Prod.fst ∘ fun e : Nat × γ => if e.1 = j then (e.1, e.2 + v) else e) = Prod.fst := by
        funext e; simp only [Function.comp]; split <;> rfl
      rw [this]; exact hs
    intro k
    by_cases hk : r.Has k
    · obtain ⟨c, hc⟩ := hk
      rw [Row.val_of_mem hs hc]
      apply Row.val_of_mem hs'
      rw [List.mem_map]
      refine ⟨(k, c), hc, ?_⟩
      by_cases h : k = j <;> simp [h]
    · have : k ≠ j := fun h => hk ⟨b, by rw [h]; exact hb⟩
      rw [Row.val_of_not_mem (fun c hc => hk ⟨c, hc⟩), if_neg this, add_zero]
      apply Row.val_of_not_mem
      intro c hc
      rw [List.mem_map] at hc
      obtain ⟨e, he, h⟩ := hc
      apply hk
      refine ⟨e.2, ?_⟩
      have : e.1 = k := by
        split at h
        · exact congrArg Prod.fst h
        · exact congrArg Prod.fst h
      rw [← this]; exact he

/-- same sizes and pattern -/
def SamePat (C C' : SpMat γ) : Prop := C'.n = C.n ∧ C'.m = C.m ∧ ∀ i, (C'.row i).map Prod.fst = (C.row i).map Prod.fst

theorem SamePat.has {C C' : SpMat γ} (h : SamePat C C') (i j : Nat) : (C'.row i).Has j ↔ (C.row i).Has j := by
  have e : ∀ r : Row γ, r.Has j ↔ j ∈ r.map Prod.fst := by intro r; simp [Row.Has]
  rw [e, e, h.2.2]

theorem SamePat.asc {C C' : SpMat γ} (h : SamePat C C') (i : Nat) (ha : (C.row i).Asc) : (C'.row i).Asc := by
  unfold Row.Asc at *
  rw [h.2.2]; exact ha

theorem accEntry_fold [AddCommGroup γ] (add : γ → α → β → γ) (mul : α → β → γ) (hadd : ∀ c a b, add c a b = c + mul a b)
    (L : List ((α × β) × Nat × Nat)) (C : SpMat γ) (hC : ∀ i < C.n, (C.row i).Asc) (hL : ∀ c ∈ L, C.Has c.2.1 c.2.2) :
    ∃ C', L.foldlM (fun s c => accEntry add c.1.1 c.1.2 c.2.1 c.2.2 s) C = .ok C' ∧ SamePat C C' ∧
      ∀ i < C.n, ∀ j, C'.entry i j = C.entry i j + (L.map fun c => if c.2 = (i, j) then mul c.1.1 c.1.2 else 0).sum := by
  induction L generalizing C with
  | nil => exact ⟨C, rfl, ⟨rfl, rfl, fun _ => rfl⟩, by simp⟩
  | cons c L ih =>
    obtain ⟨hcn, hch⟩ := hL c (by simp)
    obtain ⟨r', h1, h2, h3⟩ := modify_val (hC c.2.1 hcn) hch (mul c.1.1 c.1.2)
    have hp : SamePat C { C with row := upd C.row c.2.1 r' } := by
      refine ⟨rfl, rfl, fun i => ?_⟩
      simp only [upd]
      split
      · next h => rw [h, h2]
      · rfl
    obtain ⟨C', g1, g2, g3⟩ := ih { C with row := upd C.row c.2.1 r' } (fun i hi => hp.asc i (hC i hi)) (fun c' h => by
      have := hL c' (by simp [h])
      exact ⟨this.1, (hp.has _ _).mpr this.2⟩)
    refine ⟨C', ?_, ⟨g2.1, g2.2.1, fun i => by rw [g2.2.2, hp.2.2]⟩, ?_⟩
    · rw [List.foldlM_cons]
      have : accEntry add c.1.1 c.1.2 c.2.1 c.2.2 C = .ok { C with row := upd C.row c.2.1 r' } := by
        unfold accEntry
        rw [rowAt, if_pos hcn, Res.ok_bind]
        simp only [hadd]
        rw [h1]
        rfl
      rw [this, Res.ok_bind, g1]
    · intro i hi j
      rw [g3 i hi j, List.map_cons, List.sum_cons, ← add_assoc]
      congr 1
      unfold SpMat.entry
      dsimp only [upd]
      split
      · next h =>
        subst h
        rw [h3 j]
        congr 1
        have : c.2 = (c.2.1, j) ↔ j = c.2.2 := by
          constructor
          · intro h; rw [Prod.ext_iff] at h; exact h.2.symm
          · intro h; rw [h]
        simp only [this]
      · next h =>
        have : ¬ c.2 = (i, j) := fun hc => h (by rw [hc])
        rw [if_neg this, add_zero]

/-! ### Sums over the calls -/

theorem sum_flatMap {E M : Type} [AddCommMonoid M] (l : List E) (g : E → List M) : (l.flatMap g).sum = (l.map fun e => (g e).sum).sum := by
  induction l with
  | nil => rfl
  | cons e l ih => rw [List.flatMap_cons, List.sum_append, List.map_cons, List.sum_cons, ih]

theorem map_flatMap' {E F G : Type} (l : List E) (g : E → List F) (h : F → G) : (l.flatMap g).map h = l.flatMap fun e => (g e).map h := by
  rw [List.map_flatMap]

theorem sum_range_pick {M : Type} [AddCommMonoid M] (n i : Nat) (hi : i < n) (f : Nat → M) :
    ((List.range n).map fun k => if k = i then f k else 0).sum = f i := by
  have : ((List.range n).map fun k => if k = i then f k else 0).sum = ∑ k ∈ Finset.range n, if k = i then f k else 0 := rfl
  rw [this, Finset.sum_ite_eq' (Finset.range n) i f, if_pos (Finset.mem_range.mpr hi)]

section Sums
variable [AddCommGroup α] [AddCommGroup β] [AddCommGroup γ]

theorem sum_calls0 (mul : α →+ β →+ γ) (A : SpMat α) (B : SpMat β) (hA : A.WF) (hB : B.WF) (hs : A.m = B.n) (i j : Nat) (hi : i < A.n) :
    ((calls0 A B).map fun c => if c.2 = (i, j) then mul c.1.1 c.1.2 else 0).sum =
      ∑ k ∈ Finset.range A.m, mul (A.entry i k) (B.entry k j) := by
  have hrow : ∀ k ∈ List.range A.n, (((A.row k).flatMap fun e => (B.row e.1).map fun f => ((e.2, f.2), k, f.1)).map
      fun c : (α × β) × Nat × Nat => if c.2 = (i, j) then mul c.1.1 c.1.2 else 0).sum =
      if k = i then ((A.row k).map fun e => mul e.2 (B.entry e.1 j)).sum else 0 := by
    intro k hk
    rw [map_flatMap', sum_flatMap]
    by_cases hki : k = i
    · subst hki
      rw [if_pos rfl]
      congr 1
      apply List.map_congr_left
      intro e he
      have hb : e.1 < B.n := by rw [← hs]; exact (hA k hi).2 e he
      rw [List.map_map]
      have := list_sum_ite_key (B.row e.1) (hB e.1 hb).1 j (fun b => mul e.2 b) (map_zero _)
      rw [← SpMat.entry] at this
      rw [← this]
      congr 1
      apply List.map_congr_left
      intro f _
      simp [Function.comp, Prod.ext_iff]
    · rw [if_neg hki]
      have : ((A.row k).map fun e => (((B.row e.1).map fun f => ((e.2, f.2), k, f.1)).map
          fun c : (α × β) × Nat × Nat => if c.2 = (i, j) then mul c.1.1 c.1.2 else 0).sum) = (A.row k).map fun _ => (0 : γ) := by
        apply List.map_congr_left
        intro e _
        rw [List.map_map]
        have : ((fun c : (α × β) × Nat × Nat => if c.2 = (i, j) then mul c.1.1 c.1.2 else 0) ∘ fun f : Nat × β => ((e.2, f.2), k, f.1)) =
            fun _ => 0 := by
          funext f
          simp [Function.comp, hki]
        rw [this]; simp
      rw [this]; simp
  unfold calls0
  rw [map_flatMap', sum_flatMap, List.map_congr_left hrow, sum_range_pick A.n i hi (fun k => ((A.row k).map fun e => mul e.2 (B.entry e.1 j)).sum)]
  exact (Row.sum_val (A.row i) (hA i hi).1 A.m (hA i hi).2 (fun k a => mul a (B.entry k j)) (by simp)).symm

theorem sum_calls1 (mul : α →+ β →+ γ) (A : SpMat α) (B : SpMat β) (hA : A.WF) (hB : B.WF) (hs : A.n = B.n) (i j : Nat) :
    ((calls1 A B).map fun c => if c.2 = (i, j) then mul c.1.1 c.1.2 else 0).sum =
      ∑ k ∈ Finset.range A.n, mul (A.entry k i) (B.entry k j) := by
  unfold calls1
  rw [map_flatMap', sum_flatMap]
  have : ∑ k ∈ Finset.range A.n, mul (A.entry k i) (B.entry k j) = ((List.range A.n).map fun k => mul (A.entry k i) (B.entry k j)).sum := rfl
  rw [this]
  congr 1
  apply List.map_congr_left
  intro k hk
  have hk := List.mem_range.mp hk
  rw [map_flatMap', sum_flatMap]
  have h1 := list_sum_ite_key (A.row k) (hA k hk).1 i (fun a => mul a (B.entry k j)) (by simp)
  rw [← SpMat.entry] at h1
  rw [← h1]
  congr 1
  apply List.map_congr_left
  intro e _
  rw [List.map_map]
  have h2 := list_sum_ite_key (B.row k) (hB k (by omega)).1 j (fun b => if e.1 = i then mul e.2 b else 0) (by simp)
  rw [← SpMat.entry] at h2
  rw [← h2]
  congr 1
  apply List.map_congr_left
  intro f _
  simp only [Function.comp, Prod.ext_iff]
  by_cases h : e.1 = i <;> by_cases h' : f.1 = j <;> simp [h, h']

end Sums

theorem mem_calls0 (A : SpMat α) (B : SpMat β) (hA : A.WF) (hs : A.m = B.n) (i j : Nat) :
    (∃ c ∈ calls0 A B, c.2 = (i, j)) ↔ ∃ k, A.Has i k ∧ B.Has k j := by
  unfold calls0
  simp only [List.mem_flatMap, List.mem_range, List.mem_map]
  constructor
  · rintro ⟨c, ⟨i', hi', e, he, f, hf, rfl⟩, h⟩
    simp only [Prod.mk.injEq] at h
    obtain ⟨rfl, rfl⟩ := h
    exact ⟨e.1, ⟨hi', e.2, he⟩, by rw [← hs]; exact (hA _ hi').2 e he, f.2, hf⟩
  · rintro ⟨k, ⟨hi, a, ha⟩, hk, b, hb⟩
    exact ⟨((a, b), i, j), ⟨i, hi, (k, a), ha, (j, b), hb, rfl⟩, rfl⟩

theorem mem_calls1 (A : SpMat α) (B : SpMat β) (hs : A.n = B.n) (i j : Nat) :
    (∃ c ∈ calls1 A B, c.2 = (i, j)) ↔ ∃ k, A.Has k i ∧ B.Has k j := by
  unfold calls1
  simp only [List.mem_flatMap, List.mem_range, List.mem_map]
  constructor
  · rintro ⟨c, ⟨i', hi', e, he, f, hf, rfl⟩, h⟩
    simp only [Prod.mk.injEq] at h
    obtain ⟨rfl, rfl⟩ := h
    exact ⟨i', ⟨hi', e.2, he⟩, by omega, f.2, hf⟩
  · rintro ⟨k, ⟨hi, a, ha⟩, hk, b, hb⟩
    exact ⟨((a, b), i, j), ⟨k, hi, (i, a), ha, (j, b), hb, rfl⟩, rfl⟩

/-! ### Setting up the result -/

/-- A default-constructed result of any build mode but implicit. -/
theorem setup_eq (p : Plan) (h : Heap γ) (bm : BuildMode) (hbm : bm ≠ .implicit) (o : Obj γ) :
    setup p ⟨h, empty bm⟩ = rowWiseProgram p.rows p.cols p.nnz .rowWise p.todo ⟨h, o⟩ := by
  unfold setup rowWiseProgram
  have e : (do setSize p.rows p.cols p.nnz; setBuildMode .rowWise : BC γ Unit) ⟨h, empty bm⟩ = ctor p.rows p.cols p.nnz .rowWise ⟨h, o⟩ := by
    by_cases h1 : p.rows = 0 <;> by_cases h2 : p.nnz = 0 <;> cases bm <;>
      simp [setSize, deallocate, setBuildMode, ctor, allocate, setO, Cmd.bind_def, empty, allocateRows, allocateIdx, Mem.alloc, h1, h2,
        Nat.pos_of_ne_zero, Cmd.get] at hbm ⊢
  have e2 : ∀ s : St γ, (do
      setSize p.rows p.cols p.nnz
      setBuildMode .rowWise
      let c ← createbegin
      buildRows c p.todo : BC γ Unit) s = (do
      (do setSize p.rows p.cols p.nnz; setBuildMode .rowWise : BC γ Unit)
      let c ← createbegin
      buildRows c p.todo : BC γ Unit) s := by
    intro s
    simp only [Cmd.bind_def]
    cases setSize p.rows p.cols p.nnz s <;> rfl
  rw [e2, Cmd.bind_def, e, Cmd.bind_def]

theorem setup_spec (p : Plan) (h : Heap γ) (bm : BuildMode) (hbm : bm ≠ .implicit) (hlen : p.todo.length = p.rows) (hpos : 0 < p.rows)
    (hsuf : (p.todo.map fun cols => cols.toFinset.card).sum ≤ p.nnz) :
    ∃ s rows, setup p (⟨h, empty bm⟩ : St γ) = .ok () s ∧ s.o.ready = .built ∧ view s = .ok (p.rows, p.cols, rows) ∧ rows.length = p.rows ∧
      ∀ i (hi : i < rows.length) (hi2 : i < p.todo.length), rows[i].map Prod.fst = p.todo[i].toFinset.sort := by
  obtain ⟨s, h1, h2, ⟨rows, h3, h4, h5⟩, -⟩ := C04_rowwise_build_exact h (empty bm) p.rows p.cols p.nnz .rowWise (.inl rfl) p.todo hlen
    (.inr ⟨hpos, hsuf⟩)
  refine ⟨s, rows, by rw [setup_eq p h bm hbm (empty bm), h1], h2, h3, h4, ?_⟩
  intro i hi hi2
  rw [h5 i hi hi2, List.map_map]
  exact List.map_id' _

theorem finish_eq [Zero γ] (p : Plan) (acc : SpMat γ → Res (SpMat γ)) (s0 s : St γ) (v : Nat × Nat × List (Row γ))
    (h1 : setup p s0 = .ok () s) (h2 : view s = .ok v) (h3 : 0 < v.1) (C : SpMat γ) (h4 : acc (zeroed v) = .ok C) :
    finish p acc s0 = .ok C s := by
  unfold finish
  rw [Cmd.bind_ok h1]
  have : accStart (zeroed v) = .ok () := by
    unfold accStart
    rw [if_neg (by simp only [zeroed]; omega)]
  simp [Cmd.bind_def, Cmd.get, Cmd.lift, h2, this, h4]

end MatMat
end Istl
