import Verif.Lemmas.Ccs
import Mathlib.Data.List.NodupEquivFin

/-! # C38 — conversion to compressed column storage keeps the matrix -/

namespace Istl
namespace Ccs
variable {B K : Type}

/-- all blocks in visiting order -/
def blocksOf (A : SpMat B) : List (Nat × Nat × B) :=
  (List.range A.n).flatMap fun i => (A.row i).map fun e => (i, e.1, e.2)

theorem nnz_loop (A : SpMat B) (k : Nat) (s : Init K) :
    forRange k (fun i s => addRowNnz (A.row i) s) s =
      { s with mat := { s.mat with nnz := s.mat.nnz + ((List.range k).flatMap fun i => (A.row i).map fun e => (i, e.1, e.2)).length } } := by
  induction k with
  | zero => simp
  | succ k ih => rw [forRange_succ, ih, List.range_succ]; simp [addRowNnz, Nat.add_assoc]

theorem rows_fold {S : Type} (A : SpMat B) (f : S → Nat × Nat × B → Res S) (s : S) :
    forRangeM A.n (fun i s => (A.row i).foldlM (fun s e => f s (i, e.1, e.2)) s) s = (blocksOf A).foldlM f s := by
  unfold blocksOf forRangeM
  rw [MatMat.foldlM_flatMap]
  congr 1
  funext s i
  rw [List.foldlM_map]

theorem mem_blocksOf (A : SpMat B) (R C : Nat) (b : B) : (R, C, b) ∈ blocksOf A ↔ R < A.n ∧ (A.row R).Stores C b := by
  simp only [blocksOf, List.mem_flatMap, List.mem_range, List.mem_map, Prod.mk.injEq]
  constructor
  · rintro ⟨i, hi, ⟨c, b'⟩, he, rfl, rfl, rfl⟩
    exact ⟨hi, he⟩
  · rintro ⟨h, hs⟩
    exact ⟨R, h, (C, b), hs, rfl, rfl, rfl⟩

theorem blocksOf_ord (A : SpMat B) (hA : A.WF) :
    (blocksOf A).Pairwise (fun e e' => e.2.1 = e'.2.1 → e.1 < e'.1) := by
  unfold blocksOf
  rw [List.pairwise_flatMap]
  constructor
  · intro i hi
    rw [List.pairwise_map]
    have := (hA i (List.mem_range.mp hi)).1
    unfold Row.Asc at this
    rw [List.pairwise_map] at this
    exact this.imp (fun h e => by dsimp only at e; omega)
  · refine List.pairwise_lt_range.imp ?_
    intro i i' hi x hx y hy _
    simp only [List.mem_map] at hx hy
    obtain ⟨_, _, rfl⟩ := hx
    obtain ⟨_, _, rfl⟩ := hy
    exact hi

/-- the position of `t` in the index set -/
def subPos (S : List Nat) (t : Nat) : Option Nat := if t ∈ S then some (S.idxOf t) else none

theorem subIndex_spec (N : Nat) (S : List Nat) (hS : S.Pairwise (· < ·)) (hN : ∀ t ∈ S, t < N) :
    ∃ idx, subIndex N S = .ok idx ∧ VecIs idx N (subPos S) := by
  have hnd : S.Nodup := hS.imp (fun h => Nat.ne_of_lt h)
  obtain ⟨st, e, hv, hk⟩ := foldlM_inv subIndexStep
    (fun P st => VecIs st.1 N (fun t => if t ∈ P then some (S.idxOf t) else none) ∧ st.2 = P.length) S
    (List.replicate N none, 0) ⟨⟨by simp, by intro i hi; rw [rd_ok]; simp [hi]⟩, rfl⟩ (by
      intro P t rest st hl ⟨hv, hk⟩
      obtain ⟨l, e, hv'⟩ := hv.wr (some st.2) (hN t (by simp [hl]))
      refine ⟨(l, st.2 + 1), by simp [subIndexStep, e], hv'.congr ?_, by simp [hk]⟩
      intro q _
      have hidx : S.idxOf t = P.length := by
        rw [hl] at hnd ⊢
        rw [List.idxOf_append_of_notMem]
        · simp
        · intro h
          exact (List.nodup_append.mp hnd).2.2 _ h _ List.mem_cons_self rfl
      by_cases hq : q = t
      · subst hq; simp [hk, hidx]
      · simp [upd_ne _ _ hq, hq])
  exact ⟨st.1, by simp [subIndex, e], hv⟩

/-- the blocks of the sub-matrix in row `t`, renumbered -/
def subRow (A : SpMat B) (S : List Nat) (t : Nat) : List (Nat × Nat × B) :=
  (A.row t).filterMap fun e => if e.1 ∈ S then some (S.idxOf t, S.idxOf e.1, e.2) else none

/-- one optional step -/
def optStep {F S : Type} (f : S → F → Res S) (s : S) : Option F → Res S
  | some x => f s x
  | none => .ok s

theorem foldlM_filterMap' {E F S : Type} (g : E → Option F) (f : S → F → Res S) (h : S → E → Res S) (l : List E)
    (hl : ∀ e ∈ l, ∀ s, h s e = optStep f s (g e)) (s : S) :
    l.foldlM h s = (l.filterMap g).foldlM f s := by
  induction l generalizing s with
  | nil => rfl
  | cons e l ih =>
    rw [List.foldlM_cons, hl e List.mem_cons_self, List.filterMap_cons]
    have ih' := fun s => ih (fun x hx => hl x (List.mem_cons_of_mem _ hx)) s
    cases hg : g e with
    | none => simp only [optStep, Res.ok_bind]; exact ih' s
    | some x =>
      simp only [optStep, List.foldlM_cons]
      congr 1
      funext s
      exact ih' s

theorem sub_fold {S' : Type} (A : SpMat B) (S : List Nat) (hN : ∀ t ∈ S, t < A.n) (h : Nat → S' → Nat × B → Res S')
    (f : S' → Nat × Nat × B → Res S')
    (hh : ∀ t ∈ S, ∀ e ∈ A.row t, ∀ s, h t s e =
      optStep f s (if e.1 ∈ S then some (S.idxOf t, S.idxOf e.1, e.2) else none)) (s : S') :
    S.foldlM (fun s t => do let row ← rowAt A t; row.foldlM (h t) s) s = (S.flatMap (subRow A S)).foldlM f s := by
  rw [MatMat.foldlM_flatMap]
  refine MatMat.foldlM_congr_mem S ?_ s
  intro t ht s
  rw [rowAt, if_pos (hN t ht), Res.ok_bind]
  exact foldlM_filterMap' _ f _ _ (hh t ht) s

theorem idxOf_get {S : List Nat} (hnd : S.Nodup) {i t : Nat} (h : S[i]? = some t) : S.idxOf t = i := by
  obtain ⟨hi, rfl⟩ := List.getElem?_eq_some_iff.mp h
  exact hnd.idxOf_getElem i hi

theorem mem_subRows (A : SpMat B) (S : List Nat) (hnd : S.Nodup) (R C : Nat) (b : B) :
    (R, C, b) ∈ S.flatMap (subRow A S) ↔ ∃ t u, S[R]? = some t ∧ S[C]? = some u ∧ (A.row t).Stores u b := by
  simp only [List.mem_flatMap, subRow, List.mem_filterMap]
  constructor
  · rintro ⟨t, ht, ⟨u, b'⟩, he, h⟩
    split at h
    · rename_i hu
      simp only [Option.some.injEq, Prod.mk.injEq] at h
      obtain ⟨rfl, rfl, rfl⟩ := h
      refine ⟨t, u, ?_, ?_, he⟩
      · rw [List.getElem?_eq_getElem (List.idxOf_lt_length_iff.mpr ht), List.getElem_idxOf]
      · rw [List.getElem?_eq_getElem (List.idxOf_lt_length_iff.mpr hu), List.getElem_idxOf]
    · cases h
  · rintro ⟨t, u, h1, h2, h3⟩
    have hu := List.mem_of_getElem? h2
    refine ⟨t, List.mem_of_getElem? h1, (u, b), h3, ?_⟩
    rw [if_pos hu, idxOf_get hnd h1, idxOf_get hnd h2]

theorem subRows_ord (A : SpMat B) (hA : A.WF) (S : List Nat) (hS : S.Pairwise (· < ·)) (hN : ∀ t ∈ S, t < A.n) :
    (S.flatMap (subRow A S)).Pairwise (fun e e' => e.2.1 = e'.2.1 → e.1 < e'.1) := by
  have hnd : S.Nodup := hS.imp (fun h => Nat.ne_of_lt h)
  have hinj : ∀ u ∈ S, ∀ v ∈ S, S.idxOf u = S.idxOf v → u = v := fun u hu v hv h => (List.idxOf_inj hu).mp h
  rw [List.pairwise_flatMap]
  constructor
  · intro t ht
    unfold subRow
    rw [List.pairwise_filterMap]
    have := (hA t (hN t ht)).1
    unfold Row.Asc at this
    rw [List.pairwise_map] at this
    refine this.imp ?_
    intro x y hxy a ha b hb h
    split at ha
    · split at hb
      · rename_i hx hy
        simp only [Option.some.injEq] at ha hb
        subst ha hb
        have := hinj _ hx _ hy h
        omega
      · cases hb
    · cases ha
  · rw [List.pairwise_iff_getElem]
    intro i j hi hj hij x hx y hy _
    simp only [subRow, List.mem_filterMap] at hx hy
    obtain ⟨ex, _, hx⟩ := hx
    obtain ⟨ey, _, hy⟩ := hy
    split at hx
    · split at hy
      · simp only [Option.some.injEq] at hx hy
        subst hx hy
        dsimp only
        rw [hnd.idxOf_getElem i hi, hnd.idxOf_getElem j hj]
        exact hij
      · cases hy
    · cases hx

theorem addNnz_fold (A : SpMat B) (S : List Nat) (hN : ∀ t ∈ S, t < A.n) (idx : List (Option Nat))
    (hrd : ∀ t ∈ S, ∀ e ∈ A.row t, rd idx e.1 = .ok (subPos S e.1)) (s : Init K) :
    ∃ s', S.foldlM (fun s t => do let row ← rowAt A t; addRowNnzSub idx row s) s = .ok s' ∧
      s'.mat.nnz = s.mat.nnz + (S.flatMap (subRow A S)).length ∧ s'.mat.N = s.mat.N ∧ s'.mat.M = s.mat.M := by
  unfold addRowNnzSub
  rw [sub_fold A S hN (fun _ => addNnzStep idx)
    (fun s _ => .ok { s with mat := { s.mat with nnz := s.mat.nnz + 1 } }) (by
      intro t ht e he s
      rw [addNnzStep, hrd t ht e he, subPos]
      by_cases h : e.1 ∈ S <;> simp [h, optStep])]
  obtain ⟨s', e, h⟩ := foldlM_inv
    (fun (s : Init K) (_ : Nat × Nat × B) => Res.ok { s with mat := { s.mat with nnz := s.mat.nnz + 1 } })
    (fun P s' => s'.mat.nnz = s.mat.nnz + P.length ∧ s'.mat.N = s.mat.N ∧ s'.mat.M = s.mat.M)
    (S.flatMap (subRow A S)) s ⟨rfl, rfl, rfl⟩ (by
      intro P e rest s' _ ⟨h1, h2, h3⟩
      exact ⟨_, rfl, by simp [h1, Nat.add_assoc], h2, h3⟩)
  exact ⟨s', e, h⟩

end Ccs

open Ccs
variable {B K : Type}

/-- `copyToBCCSMatrix` on a whole matrix, into a matrix whose number of columns was set to `M()*m`: it runs without any
invalid access and the arrays describe exactly the scalar entries of the matrix; `Nnz_` is the number of stored blocks times
the block size. -/
theorem C38_full (v0 : Nat → K) (i0 : Nat → Nat) (ent : B → Nat → Nat → K) (n m : Nat) (A : SpMat B) (hA : A.WF)
    (X : Mat K) (hX : X.M = A.m * m) :
    ∃ Y, copyTo v0 i0 ent n m X A = .ok Y ∧ Y.N = X.N ∧ Y.M = X.M ∧
      Y.nnz = (∑ i ∈ Finset.range A.n, (A.row i).length) * (n * m) ∧
      Y.Represents X.M (scalarEntries A ent n m) := by
  have hlen : (blocksOf A).length = ∑ i ∈ Finset.range A.n, (A.row i).length := by
    unfold blocksOf
    rw [List.length_flatMap]
    simp only [List.length_map]
    generalize A.n = k
    induction k with
    | zero => rfl
    | succ k ih => rw [List.range_succ, List.map_append, List.sum_append, ih, Finset.sum_range_succ]; simp
  obtain ⟨s1, s2, s3, e1, e2, e3, hN, hM, hnnz, hrep⟩ := convert_spec v0 i0 ent n m X.M (blocksOf A) (by
      rintro ⟨R, C, b⟩ he
      obtain ⟨hR, hs⟩ := (mem_blocksOf A R C b).mp he
      have := (hA R hR).2 _ hs
      dsimp only at this ⊢
      have := Nat.mul_le_mul_right m (show C + 1 ≤ A.m from this)
      rw [Nat.add_mul, Nat.one_mul] at this
      omega) (blocksOf_ord A hA)
    (forRange A.n (fun i s => addRowNnz (A.row i) s) (start X)) (by rw [nnz_loop]; simp [start, blocksOf])
  refine ⟨s3.mat, ?_, by rw [hN, nnz_loop]; rfl, by rw [hM, nnz_loop]; rfl, by rw [hnnz, hlen], ?_⟩
  · unfold copyTo
    dsimp only
    rw [rows_fold A (fun s e => countEntries n m e.2.1 s), e1]
    simp only [Res.ok_bind]
    rw [e2]
    simp only [Res.ok_bind]
    rw [rows_fold A (fun s e => copyValue ent n m e.2.2 e.1 e.2.1 s), e3]
    rfl
  · have : (fun r c v => ∃ R C b i j, (R, C, b) ∈ blocksOf A ∧ i < n ∧ j < m ∧ r = R * n + i ∧ c = C * m + j ∧
        v = ent b i j) = scalarEntries A ent n m := by
      funext r c v
      apply propext
      unfold scalarEntries
      constructor
      · rintro ⟨R, C, b, i, j, h, rest⟩
        exact ⟨R, C, b, i, j, ((mem_blocksOf A R C b).mp h).1, ((mem_blocksOf A R C b).mp h).2, rest⟩
      · rintro ⟨R, C, b, i, j, h1, h2, rest⟩
        exact ⟨R, C, b, i, j, (mem_blocksOf A R C b).mpr ⟨h1, h2⟩, rest⟩
    rw [← this]
    exact hrep

/-- `copyToBCCSMatrix` on a subset of the rows and columns, given as an ordered index set; the matrix must not have more
columns than rows (the index vector has `N()` elements), and the target's number of columns is the size of the set times `m`. -/
theorem C38_subset (v0 : Nat → K) (i0 : Nat → Nat) (ent : B → Nat → Nat → K) (n m : Nat) (A : SpMat B) (hA : A.WF)
    (hsq : A.m ≤ A.n) (S : List Nat) (hS : S.Pairwise (· < ·)) (hSN : ∀ t ∈ S, t < A.n) (X : Mat K)
    (hX : X.M = S.length * m) :
    ∃ Y, copyToSub v0 i0 ent n m X A S = .ok Y ∧ Y.N = X.N ∧ Y.M = X.M ∧
      Y.Represents X.M (subEntries A ent n m S) := by
  have hnd : S.Nodup := hS.imp (fun h => Nat.ne_of_lt h)
  obtain ⟨idx, ei, hidx⟩ := subIndex_spec A.n S hS hSN
  have hrd : ∀ t ∈ S, ∀ e ∈ A.row t, rd idx e.1 = .ok (subPos S e.1) := by
    intro t ht e he
    exact hidx.2 e.1 (lt_of_lt_of_le ((hA t (hSN t ht)).2 e he) hsq)
  have hrd' : ∀ t ∈ S, rd idx t = .ok (some (S.idxOf t)) := by
    intro t ht
    rw [hidx.2 t (hSN t ht), subPos, if_pos ht]
  obtain ⟨s0, e0, hn0, hN0, hM0⟩ := addNnz_fold A S hSN idx hrd (start X)
  obtain ⟨s1, s2, s3, e1, e2, e3, hN, hM, hnnz, hrep⟩ := convert_spec v0 i0 ent n m X.M (S.flatMap (subRow A S)) (by
      rintro ⟨R, C, b⟩ he
      obtain ⟨t, u, h1, h2, h3⟩ := (mem_subRows A S hnd R C b).mp he
      have hC : C < S.length := (List.getElem?_eq_some_iff.mp h2).1
      have := Nat.mul_le_mul_right m (show C + 1 ≤ S.length from hC)
      rw [Nat.add_mul, Nat.one_mul] at this
      dsimp only
      omega) (subRows_ord A hA S hS hSN) s0 (by rw [hn0]; simp [start])
  refine ⟨s3.mat, ?_, by rw [hN, hN0]; rfl, by rw [hM, hM0]; rfl, ?_⟩
  · unfold copyToSub
    rw [ei]
    simp only [Res.ok_bind]
    rw [e0]
    simp only [Res.ok_bind]
    rw [sub_fold A S hSN (fun _ => countSub n m idx) (fun s e => countEntries n m e.2.1 s) (by
      intro t ht e he s
      rw [countSub, hrd t ht e he, subPos]
      by_cases h : e.1 ∈ S <;> simp [h, optStep]), e1]
    simp only [Res.ok_bind]
    rw [e2]
    simp only [Res.ok_bind]
    rw [sub_fold A S hSN (fun t => copySub ent n m idx t) (fun s e => copyValue ent n m e.2.2 e.1 e.2.1 s) (by
      intro t ht e he s
      rw [copySub, hrd t ht e he, subPos, hrd' t ht]
      by_cases h : e.1 ∈ S <;> simp [h, optStep]), e3]
    rfl
  · have : (fun r c v => ∃ R C b i j, (R, C, b) ∈ S.flatMap (subRow A S) ∧ i < n ∧ j < m ∧ r = R * n + i ∧ c = C * m + j ∧
        v = ent b i j) = subEntries A ent n m S := by
      funext r c v
      apply propext
      unfold subEntries
      constructor
      · rintro ⟨R, C, b, i, j, h, rest⟩
        obtain ⟨t, u, h1, h2, h3⟩ := (mem_subRows A S hnd R C b).mp h
        exact ⟨R, C, t, u, b, i, j, h1, h2, h3, rest⟩
      · rintro ⟨R, C, t, u, b, i, j, h1, h2, h3, rest⟩
        exact ⟨R, C, b, i, j, (mem_subRows A S hnd R C b).mpr ⟨t, u, h1, h2, h3⟩, rest⟩
    rw [← this]
    exact hrep

/-- `addRowNnz` with a `std::set` counts the entries of the row whose column is in the set. -/
theorem C38_countSet (row : Row B) (hr : row.Asc) (S : List Nat) (hS : S.Pairwise (· < ·)) :
    countSet row S = (row.filter (fun e => e.1 ∈ S)).length := by
  induction row generalizing S with
  | nil => simp [countSet]
  | cons e row ih =>
    have hr' : Row.Asc row := by
      unfold Row.Asc at hr ⊢
      rw [List.map_cons, List.pairwise_cons] at hr
      exact hr.2
    have hgt : ∀ x ∈ row, e.1 < x.1 := by
      unfold Row.Asc at hr
      rw [List.map_cons, List.pairwise_cons] at hr
      exact fun x hx => hr.1 _ (List.mem_map_of_mem hx)
    have hmem : ∀ x, e.1 ≤ x → (x ∈ S ↔ x ∈ S.dropWhile (fun t => t < e.1)) := by
      intro x hx
      constructor
      · intro h
        rw [← List.takeWhile_append_dropWhile (p := fun t => decide (t < e.1)) (l := S), List.mem_append] at h
        rcases h with h | h
        · have := List.mem_takeWhile_imp h
          simp at this
          omega
        · exact h
      · exact fun h => (List.dropWhile_sublist _).subset h
    have hfilter : (e :: row).filter (fun x => x.1 ∈ S) =
        (e :: row).filter (fun x => x.1 ∈ S.dropWhile (fun t => t < e.1)) := by
      apply List.filter_congr
      intro x hx
      have : e.1 ≤ x.1 := by
        rcases List.mem_cons.mp hx with rfl | h
        · exact le_rfl
        · exact le_of_lt (hgt x h)
      simp [hmem x.1 this]
    rw [hfilter]
    unfold countSet
    have hSd : (S.dropWhile (fun t => t < e.1)).Pairwise (· < ·) := hS.sublist (List.dropWhile_sublist _)
    cases hd : S.dropWhile (fun t => t < e.1) with
    | nil => simp
    | cons t rest =>
      rw [hd] at hSd
      dsimp only
      rw [ih hr' (t :: rest) hSd, List.filter_cons]
      have hte : ¬ t < e.1 := by
        have := List.head_dropWhile_not (p := fun t => decide (t < e.1)) (l := S) (by rw [hd]; simp)
        simpa [hd] using this
      by_cases h : t = e.1
      · subst h; simp [Nat.add_comm]
      · have : e.1 ∉ t :: rest := by
          intro hm
          rcases List.mem_cons.mp hm with h' | h'
          · exact h h'.symm
          · have := (List.pairwise_cons.mp hSd).1 _ h'
            omega
        simp [h, this]

/-! ### Non-vacuity: a 3 x 3 matrix with an empty row, and its sub-matrix on {0,2}, with 1 x 2 blocks -/

/-- entries (0,0)=(1,2), (0,2)=(3,4), (2,2)=(5,6) -/
def ccsDemo : SpMat (Nat → Int) := ⟨3, 3, fun i =>
  if i = 0 then [(0, fun j => if j = 0 then 1 else 2), (2, fun j => if j = 0 then 3 else 4)]
  else if i = 2 then [(2, fun j => if j = 0 then 5 else 6)] else []⟩

theorem ccsDemo_wf : ccsDemo.WF := by
  intro i hi
  simp only [ccsDemo] at hi ⊢
  interval_cases i <;> simp [Row.Asc]

example : copyTo (fun _ => 9) (fun _ => 7) (fun b _ j => b j) 1 2 ⟨3, 6, 0, [], [], []⟩ ccsDemo =
    .ok ⟨3, 6, 6, [1, 2, 3, 5, 4, 6], [0, 0, 0, 2, 0, 2], [0, 1, 2, 2, 2, 4, 6]⟩ := by decide +kernel

example : copyToSub (fun _ => 9) (fun _ => 7) (fun b _ j => b j) 1 2 ⟨2, 4, 0, [], [], []⟩ ccsDemo [0, 2] =
    .ok ⟨2, 4, 6, [1, 2, 3, 5, 4, 6], [0, 0, 0, 1, 0, 1], [0, 1, 2, 4, 6]⟩ := by decide +kernel

end Istl
