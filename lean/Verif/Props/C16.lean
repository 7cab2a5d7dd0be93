import Verif.Lemmas.MatMat2
import Mathlib.Data.Matrix.Basis
import Mathlib.Algebra.BigOperators.Fin

/-! # C16 — sparse matrix products -/

namespace Istl
open Bcrs MatMat

/-! ### Block kernels -/
section Blocks
variable {T : Type} [Semiring T] {n m k : Nat}

theorem bump_eq (res : Matrix (Fin n) (Fin m) T) (r : Fin n) (c : Fin m) (v : T) : bump res r c v = res + Matrix.single r c v := by
  ext i j
  simp only [bump, Matrix.add_apply, Matrix.single_apply]
  by_cases h : i = r ∧ j = c
  · rw [if_pos h, if_pos ⟨h.1.symm, h.2.symm⟩]
  · rw [if_neg h, if_neg (fun h' => h ⟨h'.1.symm, h'.2.symm⟩), add_zero]

theorem foldl_add_all {E M : Type} [AddCommMonoid M] (f : M → E → M) (g : E → M) (hf : ∀ res x, f res x = res + g x) (l : List E) (res : M) :
    l.foldl f res = res + (l.map g).sum := by
  induction l generalizing res with
  | nil => simp
  | cons e l ih => rw [List.foldl_cons, ih, hf, List.map_cons, List.sum_cons, add_assoc]

theorem addMatMultMat_eq (res : Matrix (Fin n) (Fin m) T) (a : Matrix (Fin n) (Fin k) T) (b : Matrix (Fin k) (Fin m) T) :
    addMatMultMat res a b = res + a * b := by
  unfold addMatMultMat
  rw [foldl_add_all _ (fun row => ∑ col, ∑ i, Matrix.single row col (a row i * b i col))]
  · congr 1
    rw [← Fin.sum_univ_def]
    ext i j
    simp only [Matrix.sum_apply, Matrix.single_apply, Matrix.mul_apply]
    rw [Finset.sum_eq_single i, Finset.sum_eq_single j]
    · simp
    · intro c _ hc; simp [hc]
    · simp
    · intro c _ hc; simp [hc]
    · simp
  · intro res row
    rw [foldl_add_all _ (fun col => ∑ i, Matrix.single row col (a row i * b i col)), ← Fin.sum_univ_def]
    intro res col
    rw [foldl_add_all _ (fun i => Matrix.single row col (a row i * b i col)) (fun _ _ => bump_eq _ _ _ _), ← Fin.sum_univ_def]

theorem addTransposeMatMultMat_eq (res : Matrix (Fin n) (Fin k) T) (a : Matrix (Fin m) (Fin n) T) (b : Matrix (Fin m) (Fin k) T) :
    addTransposeMatMultMat res a b = res + a.transpose * b := by
  unfold addTransposeMatMultMat
  rw [foldl_add_all _ (fun i => ∑ row, ∑ col, Matrix.single row col (a i row * b i col))]
  · congr 1
    rw [← Fin.sum_univ_def]
    ext r c
    simp only [Matrix.sum_apply, Matrix.single_apply, Matrix.mul_apply, Matrix.transpose_apply]
    apply Finset.sum_congr rfl
    intro i _
    rw [Finset.sum_eq_single r, Finset.sum_eq_single c]
    · simp
    · intro c _ hc; simp [hc]
    · simp
    · intro c _ hc; simp [hc]
    · simp
  · intro res i
    rw [foldl_add_all _ (fun row => ∑ col, Matrix.single row col (a i row * b i col)), ← Fin.sum_univ_def]
    intro res row
    rw [foldl_add_all _ (fun col => Matrix.single row col (a i row * b i col)) (fun _ _ => bump_eq _ _ _ _), ← Fin.sum_univ_def]

theorem addMatMultTransposeMat_eq (res : Matrix (Fin n) (Fin k) T) (a : Matrix (Fin n) (Fin m) T) (b : Matrix (Fin k) (Fin m) T) :
    addMatMultTransposeMat res a b = res + a * b.transpose :=
  addMatMultMat_eq res a b.transpose

end Blocks

section General
variable {α β γ : Type} [AddCommGroup α] [AddCommGroup β] [AddCommGroup γ]

theorem zeroed_row (n m : Nat) (rows : List (Row γ)) (i : Nat) (hi : i < rows.length) :
    ((zeroed (n, m, rows)).row i) = (rows[i].map Prod.fst).map fun j => (j, (0 : γ)) := by
  simp [zeroed, hi]

theorem zero_row_has (l : List Nat) (j : Nat) : Row.Has (l.map fun j => (j, (0 : γ))) j ↔ j ∈ l := by
  simp [Row.Has]

theorem zero_row_val (l : List Nat) (j : Nat) : Row.val (l.map fun j => (j, (0 : γ))) j = 0 := by
  unfold Row.val
  cases h : (l.map fun j => (j, (0 : γ))).find? (fun e => e.1 == j) with
  | none => rfl
  | some e =>
    have := List.mem_of_find?_eq_some h
    rw [List.mem_map] at this
    obtain ⟨k, -, rfl⟩ := this
    rfl

theorem zero_row_asc (l : List Nat) (h : l.Pairwise (· < ·)) : Row.Asc (l.map fun j => (j, (0 : γ))) := by
  unfold Row.Asc
  rw [List.map_map]
  have : (Prod.fst ∘ fun j : Nat => (j, (0 : γ))) = id := rfl
  rw [this, List.map_id]; exact h

/-- variants 0 and 1: a list of calls `(a, b, i, j)`, positions collected in sets, then accumulated -/
theorem product_of_calls (add : γ → α → β → γ) (mul : α →+ β →+ γ) (hadd : ∀ c a b, add c a b = c + mul a b)
    (L : List ((α × β) × Nat × Nat)) (rows cols : Nat) (hrows : 0 < rows) (hL : ∀ c ∈ L, c.2.1 < rows ∧ c.2.2 < cols)
    (h : Heap γ) (bm : BuildMode) (hbm : bm ≠ .implicit) (e : Nat → List Nat)
    (he : L.foldlM (fun s c => insertEntry rows c.1.1 c.1.2 c.2.1 c.2.2 s) (fun _ => []) = .ok e) :
    ∃ C s, finish (planOfSets rows cols e) (fun C => L.foldlM (fun s c => accEntry add c.1.1 c.1.2 c.2.1 c.2.2 s) C) ⟨h, empty bm⟩ = .ok C s ∧
      s.o.ready = .built ∧ C.n = rows ∧ C.m = cols ∧ C.WF ∧ (∀ i j, C.Has i j ↔ ∃ c ∈ L, c.2 = (i, j)) ∧
      ∀ i < rows, ∀ j, C.entry i j = (L.map fun c => if c.2 = (i, j) then mul c.1.1 c.1.2 else 0).sum := by
  obtain ⟨e', he', hasc, hmem⟩ := insertEntry_fold rows L (fun c hc => (hL c hc).1) (fun _ => []) (by simp)
  rw [he] at he'
  cases he'
  have hnd : ∀ i, (e i).toFinset.card = (e i).length := by
    intro i
    rw [List.toFinset_card_of_nodup]
    exact (hasc i).imp (fun h => Nat.ne_of_lt h)
  obtain ⟨s, rws, h1, hb, h2, h3, h4⟩ := setup_spec (planOfSets rows cols e) h bm hbm (by simp [planOfSets]) hrows (by
    simp only [planOfSets, List.map_map]
    apply le_of_eq
    congr 1
    apply List.map_congr_left
    intro i _
    exact hnd i)
  have hrow : ∀ i < rows, (zeroed (rows, cols, rws)).row i = (e i).map fun j => (j, 0) := by
    intro i hi
    rw [zeroed_row _ _ _ _ (by rw [h3]; exact hi), h4 i (by rw [h3]; exact hi) (by simp [planOfSets]; exact hi)]
    congr 1
    simp only [planOfSets, List.getElem_map, List.getElem_range]
    exact (asc_eq_sort (e i) _ (hasc i) (by simp)).symm
  have hCasc : ∀ i < (zeroed (γ := γ) (rows, cols, rws)).n, ((zeroed (rows, cols, rws)).row i).Asc := by
    intro i hi
    rw [hrow i hi]; exact zero_row_asc _ (hasc i)
  have hhas : ∀ i j, (zeroed (rows, cols, rws)).Has i j ↔ ∃ c ∈ L, c.2 = (i, j) := by
    intro i j
    constructor
    · rintro ⟨hi, hj⟩
      rw [hrow i hi, zero_row_has, hmem] at hj
      simpa using hj
    · rintro ⟨c, hc, hij⟩
      have hi : i < rows := by have := (hL c hc).1; rw [hij] at this; exact this
      refine ⟨hi, ?_⟩
      rw [hrow i hi, zero_row_has, hmem]
      exact .inr ⟨c, hc, hij⟩
  obtain ⟨C, g1, g2, g3⟩ := accEntry_fold add (fun a b => mul a b) hadd L (zeroed (rows, cols, rws)) hCasc
    (fun c hc => (hhas c.2.1 c.2.2).mpr ⟨c, hc, rfl⟩)
  refine ⟨C, s, finish_eq _ _ _ s (rows, cols, rws) h1 h2 hrows C g1, hb, g2.1, g2.2.1, ?_, ?_, ?_⟩
  · intro i hi
    rw [g2.1] at hi
    refine ⟨g2.asc i (hCasc i hi), ?_⟩
    intro x hx
    have : (zeroed (rows, cols, rws)).Has i x.1 := ⟨hi, (g2.has i x.1).mp ⟨x.2, hx⟩⟩
    obtain ⟨c, hc, hij⟩ := (hhas i x.1).mp this
    have := (hL c hc).2
    rw [hij] at this
    rw [g2.2.1]; exact this
  · intro i j
    rw [← hhas i j]
    unfold SpMat.Has
    rw [g2.1, g2.has]
  · intro i hi j
    rw [g3 i hi j]
    have : (zeroed (γ := γ) (rows, cols, rws)).entry i j = 0 := by
      unfold SpMat.entry
      rw [hrow i hi]; exact zero_row_val _ _
    rw [this, zero_add]

theorem product0 (add : γ → α → β → γ) (mul : α →+ β →+ γ) (hadd : ∀ c a b, add c a b = c + mul a b) (A : SpMat α) (B : SpMat β)
    (hA : A.WF) (hB : B.WF) (hs : A.m = B.n) (hn : 0 < A.n) (h : Heap γ) (bm : BuildMode) (hbm : bm ≠ .implicit) :
    ∃ C s, matMultMat0 add A B ⟨h, empty bm⟩ = .ok C s ∧ s.o.ready = .built ∧ C.n = A.n ∧ C.m = B.m ∧ C.WF ∧
      (∀ i j, C.Has i j ↔ ∃ k, A.Has i k ∧ B.Has k j) ∧
      ∀ i < A.n, ∀ j, C.entry i j = ∑ k ∈ Finset.range A.m, mul (A.entry i k) (B.entry k j) := by
  have hL : ∀ c ∈ calls0 A B, c.2.1 < A.n ∧ c.2.2 < B.m := by
    intro c hc
    obtain ⟨k, h1, h2, b, hb⟩ := (mem_calls0 A B hA hs c.2.1 c.2.2).mp ⟨c, hc, rfl⟩
    exact ⟨h1.1, (hB k h2).2 _ hb⟩
  obtain ⟨e, he, -⟩ := insertEntry_fold A.n (calls0 A B) (fun c hc => (hL c hc).1) (fun _ => []) (by simp)
  obtain ⟨C, s, h1, hb, h2, h3, h4, h5, h6⟩ := product_of_calls add mul hadd (calls0 A B) A.n B.m hn hL h bm hbm e he
  refine ⟨C, s, ?_, hb, h2, h3, h4, fun i j => by rw [h5, mem_calls0 A B hA hs], fun i hi j => by rw [h6 i hi, sum_calls0 mul A B hA hB hs i j hi]⟩
  unfold matMultMat0 plan0
  rw [traverse0_eq _ A B hA hs, he]
  have : traverse0 (accEntry add) A B = fun C => (calls0 A B).foldlM (fun s c => accEntry add c.1.1 c.1.2 c.2.1 c.2.2 s) C := by
    funext C; exact traverse0_eq _ A B hA hs C
  rw [this]
  exact h1

theorem product1 (add : γ → α → β → γ) (mul : α →+ β →+ γ) (hadd : ∀ c a b, add c a b = c + mul a b) (A : SpMat α) (B : SpMat β)
    (hA : A.WF) (hB : B.WF) (hs : A.n = B.n) (hn : 0 < A.m) (h : Heap γ) (bm : BuildMode) (hbm : bm ≠ .implicit) :
    ∃ C s, matMultMat1 add A B ⟨h, empty bm⟩ = .ok C s ∧ s.o.ready = .built ∧ C.n = A.m ∧ C.m = B.m ∧ C.WF ∧
      (∀ i j, C.Has i j ↔ ∃ k, A.Has k i ∧ B.Has k j) ∧
      ∀ i < A.m, ∀ j, C.entry i j = ∑ k ∈ Finset.range A.n, mul (A.entry k i) (B.entry k j) := by
  have hL : ∀ c ∈ calls1 A B, c.2.1 < A.m ∧ c.2.2 < B.m := by
    intro c hc
    obtain ⟨k, ⟨h1, a, ha⟩, h2, b, hb⟩ := (mem_calls1 A B hs c.2.1 c.2.2).mp ⟨c, hc, rfl⟩
    exact ⟨(hA k h1).2 _ ha, (hB k h2).2 _ hb⟩
  obtain ⟨e, he, -⟩ := insertEntry_fold A.m (calls1 A B) (fun c hc => (hL c hc).1) (fun _ => []) (by simp)
  obtain ⟨C, s, h1, hb, h2, h3, h4, h5, h6⟩ := product_of_calls add mul hadd (calls1 A B) A.m B.m hn hL h bm hbm e he
  refine ⟨C, s, ?_, hb, h2, h3, h4, fun i j => by rw [h5, mem_calls1 A B hs], fun i hi j => by rw [h6 i hi, sum_calls1 mul A B hA hB hs i j]⟩
  unfold matMultMat1 plan1
  rw [traverse1_eq _ A B hs, he]
  have : traverse1 (accEntry add) A B = fun C => (calls1 A B).foldlM (fun s c => accEntry add c.1.1 c.1.2 c.2.1 c.2.2 s) C := by
    funext C; exact traverse1_eq _ A B hs C
  rw [this]
  exact h1

theorem pcols_asc (A : SpMat α) (B : SpMat β) (i t : Nat) : (pcols A B i t).Pairwise (· < ·) := by
  unfold pcols
  exact (List.pairwise_lt_range).filter _

/-- the plan of variant 2 -/
def planRows (A : SpMat α) (B : SpMat β) : Plan :=
  ⟨A.n, B.n, ((List.range A.n).map fun i => (pcols A B i B.n).length).sum, (List.range A.n).map fun i => pcols A B i B.n⟩

theorem product2 (add : γ → α → β → γ) (mul : α →+ β →+ γ) (hadd : ∀ c a b, add c a b = c + mul a b) (A : SpMat α) (B : SpMat β)
    (hA : A.WF) (hB : B.WF) (hs : A.m = B.m) (hn : 0 < A.n) (h : Heap γ) (bm : BuildMode) (hbm : bm ≠ .implicit) :
    ∃ C s, matMultMat2 add A B ⟨h, empty bm⟩ = .ok C s ∧ s.o.ready = .built ∧ C.n = A.n ∧ C.m = B.n ∧ C.WF ∧
      (∀ i j, C.Has i j ↔ ∃ k, A.Has i k ∧ B.Has j k) ∧
      ∀ i < A.n, ∀ j < B.n, C.entry i j = ∑ k ∈ Finset.range A.m, mul (A.entry i k) (B.entry j k) := by
  have hplan : plan2 A B = .ok (planRows A B) := by
    unfold plan2 traverse2
    rw [if_neg (by simpa using hs), if_neg (by simpa using hs), count_all A B hA hB A.n (le_refl _), Res.ok_bind, pat_all A B hA hB A.n (le_refl _)]
    rfl
  have hnd : ∀ i, (pcols A B i B.n).toFinset.card = (pcols A B i B.n).length := by
    intro i
    rw [List.toFinset_card_of_nodup]
    exact (pcols_asc A B i B.n).imp (fun h => Nat.ne_of_lt h)
  obtain ⟨s, rws, h1, hb, h2, h3, h4⟩ := setup_spec (γ := γ) (planRows A B) h bm hbm (by simp [planRows]) hn (by
    simp only [planRows, List.map_map]
    apply le_of_eq
    congr 1
    apply List.map_congr_left
    intro i _
    exact hnd i)
  dsimp only [planRows] at h2 h3 h4
  have hrow : ∀ i < A.n, (zeroed (A.n, B.n, rws)).row i = prow (fun a b => mul a b) A B i 0 := by
    intro i hi
    rw [zeroed_row _ _ _ _ (by rw [h3]; exact hi), h4 i (by rw [h3]; exact hi) (by simp; exact hi)]
    simp only [List.getElem_map, List.getElem_range]
    rw [← asc_eq_sort (pcols A B i B.n) _ (pcols_asc A B i B.n) (by simp)]
    simp [prow, pcols, List.range_eq_range']
  have hacc := acc_all add (fun a b => mul a b) hadd A B hA hB (zeroed (A.n, B.n, rws)) rfl hrow A.n (le_refl _)
  have hfin : ∀ i, prow (fun a b => mul a b) A B i B.n = (pcols A B i B.n).map fun j => (j, pval (fun a b => mul a b) A B i j) := by
    intro i; simp [prow]
  have hfasc : ∀ i, Row.Asc ((pcols A B i B.n).map fun j => (j, pval (fun a b => mul a b) A B i j)) := by
    intro i
    unfold Row.Asc
    rw [List.map_map]
    have : (Prod.fst ∘ fun j : Nat => (j, pval (fun a b => mul a b) A B i j)) = id := rfl
    rw [this, List.map_id]; exact pcols_asc A B i B.n
  have hmeet : ∀ i j, i < A.n → (j ∈ pcols A B i B.n ↔ ∃ k, A.Has i k ∧ B.Has j k) := by
    intro i j hi
    unfold pcols
    rw [List.mem_filter, List.mem_range, meet_iff]
    constructor
    · rintro ⟨hj, k, h1, h2⟩; exact ⟨k, ⟨hi, h1⟩, hj, h2⟩
    · rintro ⟨k, ⟨-, h1⟩, hj, h2⟩; exact ⟨hj, k, h1, h2⟩
  refine ⟨{ (zeroed (A.n, B.n, rws)) with row := fun i => if i < A.n then prow (fun a b => mul a b) A B i B.n else (zeroed (A.n, B.n, rws)).row i }, s, ?_, hb, ?_⟩
  · unfold matMultMat2
    have := finish_eq (planRows A B) (accumulate2 add A B) ⟨h, empty bm⟩ s (A.n, B.n, rws) h1 h2 hn
      { (zeroed (A.n, B.n, rws)) with row := fun i => if i < A.n then prow (fun a b => mul a b) A B i B.n else (zeroed (A.n, B.n, rws)).row i }
      (by unfold accumulate2 traverse2; rw [if_neg (by simpa using hs), hacc]; rfl)
    simp only [Cmd.bind_def, Cmd.lift, hplan]
    exact this
  · refine ⟨rfl, rfl, ?_, ?_, ?_⟩
    · intro i hi
      have hi : i < A.n := hi
      dsimp only
      rw [if_pos hi, hfin]
      refine ⟨hfasc i, ?_⟩
      intro x hx
      rw [List.mem_map] at hx
      obtain ⟨j, hj, rfl⟩ := hx
      obtain ⟨k, -, h⟩ := (hmeet i j hi).mp hj
      exact h.1
    · intro i j
      constructor
      · rintro ⟨hi, hj⟩
        have hi : i < A.n := hi
        dsimp only at hj
        rw [if_pos hi, hfin] at hj
        obtain ⟨x, hx⟩ := hj
        rw [List.mem_map] at hx
        obtain ⟨j', hj', he⟩ := hx
        cases he
        exact (hmeet i _ hi).mp hj'
      · intro hk
        have hi : i < A.n := by obtain ⟨k, h, -⟩ := hk; exact h.1
        refine ⟨hi, ?_⟩
        dsimp only
        rw [if_pos hi, hfin]
        exact ⟨_, List.mem_map.mpr ⟨j, (hmeet i j hi).mpr hk, rfl⟩⟩
    · intro i hi j hj
      unfold SpMat.entry
      dsimp only
      rw [if_pos hi, hfin, ← sum_common mul (A.row i) (B.row j) (hA i hi).1 A.m (hA i hi).2]
      by_cases hm : j ∈ pcols A B i B.n
      · exact Row.val_of_mem (hfasc i) (List.mem_map.mpr ⟨j, hm, rfl⟩)
      · rw [Row.val_of_not_mem]
        · have : common (A.row i) (B.row j) = [] := by
            by_contra hne
            rw [← ne_eq, common_ne_nil] at hne
            obtain ⟨k, h1, h2⟩ := hne
            exact hm ((hmeet i j hi).mpr ⟨k, ⟨hi, h1⟩, hj, h2⟩)
          rw [this]; rfl
        · intro b hb
          rw [List.mem_map] at hb
          obtain ⟨j', hj', he⟩ := hb
          cases he
          exact hm hj'

end General

section Statements
variable {T : Type} [Ring T] {n k m : Nat}

/-- block multiplication as an additive map -/
def mulHom : Matrix (Fin n) (Fin k) T →+ Matrix (Fin k) (Fin m) T →+ Matrix (Fin n) (Fin m) T where
  toFun a := { toFun := fun b => a * b, map_zero' := Matrix.mul_zero a, map_add' := Matrix.mul_add a }
  map_zero' := by ext b : 1; exact Matrix.zero_mul b
  map_add' a a' := by ext b : 1; exact Matrix.add_mul a a' b

/-- `matMultMat(C,A,B)` into a default-constructed `C`, for every pair of well-formed matrices of matching size with at least one row:
`C` is built, an entry is stored exactly where some `k` has both factors stored, and every entry is the sum of the block products. -/
theorem C16_matMultMat (A : SpMat (Matrix (Fin n) (Fin k) T)) (B : SpMat (Matrix (Fin k) (Fin m) T)) (hA : A.WF) (hB : B.WF)
    (hs : A.m = B.n) (hn : 0 < A.n) (h : Heap (Matrix (Fin n) (Fin m) T)) (bm : BuildMode) (hbm : bm ≠ .implicit) :
    ∃ C s, matMultMat0 addMatMultMat A B ⟨h, empty bm⟩ = .ok C s ∧ s.o.ready = .built ∧ C.n = A.n ∧ C.m = B.m ∧ C.WF ∧
      (∀ i j, C.Has i j ↔ ∃ k, A.Has i k ∧ B.Has k j) ∧
      ∀ i < A.n, ∀ j, C.entry i j = ∑ k ∈ Finset.range A.m, A.entry i k * B.entry k j :=
  product0 addMatMultMat mulHom (fun c a b => addMatMultMat_eq c a b) A B hA hB hs hn h bm hbm

/-- `transposeMatMultMat(C,A,B)`: `C = A^T B`. -/
theorem C16_transposeMatMultMat (A : SpMat (Matrix (Fin k) (Fin n) T)) (B : SpMat (Matrix (Fin k) (Fin m) T)) (hA : A.WF) (hB : B.WF)
    (hs : A.n = B.n) (hn : 0 < A.m) (h : Heap (Matrix (Fin n) (Fin m) T)) (bm : BuildMode) (hbm : bm ≠ .implicit) :
    ∃ C s, matMultMat1 addTransposeMatMultMat A B ⟨h, empty bm⟩ = .ok C s ∧ s.o.ready = .built ∧ C.n = A.m ∧ C.m = B.m ∧ C.WF ∧
      (∀ i j, C.Has i j ↔ ∃ k, A.Has k i ∧ B.Has k j) ∧
      ∀ i < A.m, ∀ j, C.entry i j = ∑ k ∈ Finset.range A.n, (A.entry k i).transpose * B.entry k j :=
  product1 addTransposeMatMultMat (mulHom.comp (Matrix.transposeAddEquiv (Fin k) (Fin n) T).toAddMonoidHom)
    (fun c a b => addTransposeMatMultMat_eq c a b) A B hA hB hs hn h bm hbm

/-- `matMultTransposeMat(C,A,B)`: `C = A B^T`. -/
theorem C16_matMultTransposeMat (A : SpMat (Matrix (Fin n) (Fin m) T)) (B : SpMat (Matrix (Fin k) (Fin m) T)) (hA : A.WF) (hB : B.WF)
    (hs : A.m = B.m) (hn : 0 < A.n) (h : Heap (Matrix (Fin n) (Fin k) T)) (bm : BuildMode) (hbm : bm ≠ .implicit) :
    ∃ C s, matMultMat2 addMatMultTransposeMat A B ⟨h, empty bm⟩ = .ok C s ∧ s.o.ready = .built ∧ C.n = A.n ∧ C.m = B.n ∧ C.WF ∧
      (∀ i j, C.Has i j ↔ ∃ k, A.Has i k ∧ B.Has j k) ∧
      ∀ i < A.n, ∀ j < B.n, C.entry i j = ∑ k ∈ Finset.range A.m, A.entry i k * (B.entry j k).transpose :=
  product2 addMatMultTransposeMat ((AddMonoidHom.compHom'  (Matrix.transposeAddEquiv (Fin k) (Fin m) T).toAddMonoidHom).comp mulHom)
    (fun c a b => addMatMultTransposeMat_eq c a b) A B hA hB hs hn h bm hbm

end Statements

section Errors
variable {α β γ : Type} [Zero γ]

/-- Mismatching sizes throw `ISTLError` before anything is computed: memory and result object are untouched. -/
theorem C16_mismatch_throws (add : γ → α → β → γ) (A : SpMat α) (B : SpMat β) (s : St γ) :
    (A.m ≠ B.n → matMultMat0 add A B s = .throw .istlError s) ∧
    (A.n ≠ B.n → matMultMat1 add A B s = .throw .istlError s) ∧
    (A.m ≠ B.m → matMultMat2 add A B s = .throw .istlError s) := by
  refine ⟨fun h => ?_, fun h => ?_, fun h => ?_⟩
  · simp [matMultMat0, plan0, traverse0, h, Cmd.bind_def, Cmd.lift]
  · simp [matMultMat1, plan1, traverse1, h, Cmd.bind_def, Cmd.lift]
  · simp [matMultMat2, plan2, traverse2, h, Cmd.bind_def, Cmd.lift]

/-- A product without rows dereferences the first row of an empty matrix. -/
theorem C16_empty_counterexample :
    (match matMultMat0 (fun c a b => c + a * b : Int → Int → Int → Int) { n := 0, m := 0, row := fun _ => [] } { n := 0, m := 2, row := fun _ => [] }
        ⟨⟨[], [], 77, 0, 0⟩, empty⟩ with
      | .ub => true
      | _ => false) = true := by
  decide +kernel

end Errors

/-- Non-vacuity: a product with a structural zero, a cancelled stored value and an empty row. -/
example : let A : SpMat Int := { n := 3, m := 2, row := fun i => if i = 0 then [(0, 1), (1, 1)] else if i = 1 then [] else [(1, 2)] }
    let B : SpMat Int := { n := 2, m := 3, row := fun i => if i = 0 then [(0, 1), (2, 5)] else [(0, -1)] }
    A.WF ∧ B.WF ∧ (match matMultMat0 (fun c a b => c + a * b : Int → Int → Int → Int) A B ⟨⟨[], [], 77, 3, 0⟩, empty⟩ with
      | .ok C _ => decide (C.row 0 = [(0, 0), (2, 5)] ∧ C.row 1 = [] ∧ C.row 2 = [(0, -2)])
      | _ => false) = true := by
  refine ⟨?_, ?_, by decide +kernel⟩
  · intro i hi
    have : i = 0 ∨ i = 1 ∨ i = 2 := by simp at hi; omega
    rcases this with rfl | rfl | rfl <;> simp [Row.Asc]
  · intro i hi
    have : i = 0 ∨ i = 1 := by simp at hi; omega
    rcases this with rfl | rfl <;> simp [Row.Asc]

end Istl
