import Verif.Lemmas.MatrixMarket
import Verif.Lemmas.BcrsRandom2
import Verif.Lemmas.Row

/-! From the entries of a file to the matrix. -/

namespace Istl
namespace MM
open Bcrs MatMat
variable {K : Type} [Zero K] [Neg K]

omit [Zero K] [Neg K] in
theorem firstAt_isSome (L : List (Nat × Nat × K)) (i j : Nat) : (∃ v, firstAt L i j = some v) ↔ ∃ t ∈ L, t.1 = i ∧ t.2.1 = j := by
  unfold firstAt
  constructor
  · rintro ⟨v, h⟩
    obtain ⟨t, ht, -⟩ := Option.map_eq_some_iff.1 h
    exact ⟨t, List.mem_of_find?_eq_some ht, by simpa using List.find?_some ht⟩
  · rintro ⟨t, ht, h1, h2⟩
    cases h : List.find? (fun t : Nat × Nat × K => decide (t.1 = i ∧ t.2.1 = j)) L with
    | none => exact absurd (List.find?_eq_none.1 h t ht) (by simp [h1, h2])
    | some t' => exact ⟨t'.2.2, by simp⟩

omit [Zero K] [Neg K] in
theorem rows_mem {rows : List (List (Nat × K))} {N : Nat} {L : List (Nat × Nat × K)} (R : RowsOK rows N L) (hN : ∀ t ∈ L, t.1 < N)
    (i j : Nat) (v : K) : (j, v) ∈ rows.getD i [] ↔ firstAt L i j = some v := by
  by_cases h : i < rows.length
  · rw [List.getD_eq_getElem?_getD, List.getElem?_eq_getElem h]; exact R.mem i h j v
  · rw [List.getD_eq_getElem?_getD, List.getElem?_eq_none (by omega), Option.getD_none]
    simp only [List.not_mem_nil, false_iff]
    intro hc
    obtain ⟨t, ht, h1, -⟩ := (firstAt_isSome L i j).1 ⟨v, hc⟩
    have := hN t ht
    rw [← R.len] at this
    omega

omit [Zero K] [Neg K] in
theorem mem_assignments {rows : List (List (Nat × K))} {N : Nat} {L : List (Nat × Nat × K)} (R : RowsOK rows N L) (hN : ∀ t ∈ L, t.1 < N)
    (r I : Nat) (x : Nat × Nat × K) : x ∈ assignments r rows I ↔ x.1 < r ∧ firstAt L (I * r + x.1) x.2.1 = some x.2.2 := by
  unfold assignments
  simp only [List.mem_flatMap, List.mem_range, List.mem_map]
  constructor
  · rintro ⟨a, ha, e, he, rfl⟩
    exact ⟨ha, (rows_mem R hN _ _ _).1 he⟩
  · rintro ⟨ha, h⟩
    exact ⟨x.1, ha, (x.2.1, x.2.2), (rows_mem R hN _ _ _).2 h, rfl⟩

omit [Zero K] [Neg K] in
theorem blockCols_toFinset {rows : List (List (Nat × K))} {N : Nat} {L : List (Nat × Nat × K)} (R : RowsOK rows N L) (hN : ∀ t ∈ L, t.1 < N)
    {r : Nat} (hr : 0 < r) (c I : Nat) : (blockCols r c rows I).toFinset = touched L r c I := by
  ext J
  unfold blockCols touched
  simp only [List.mem_toFinset, List.mem_flatMap, List.mem_range, List.mem_map, List.mem_filter, decide_eq_true_eq]
  constructor
  · rintro ⟨a, ha, e, he, rfl⟩
    obtain ⟨t, ht, h1, h2⟩ := (firstAt_isSome L _ _).1 ⟨_, (rows_mem R hN _ e.1 e.2).1 he⟩
    refine ⟨t, ⟨ht, ?_⟩, by rw [h2]⟩
    rw [h1, Nat.mul_comm, Nat.mul_add_div hr, Nat.div_eq_of_lt ha]; rfl
  · rintro ⟨t, ⟨ht, rfl⟩, rfl⟩
    obtain ⟨v, hv⟩ := (firstAt_isSome L t.1 t.2.1).2 ⟨t, ht, rfl, rfl⟩
    refine ⟨t.1 % r, Nat.mod_lt _ hr, (t.2.1, v), (rows_mem R hN _ _ _).2 ?_, rfl⟩
    rw [Nat.mul_comm, Nat.div_add_mod]; exact hv

variable {r c : Nat}

/-- One assignment, on the blocks of a row. -/
def stepG (c : Nat) (g : Nat → Fin r → Fin c → K) (x : Nat × Nat × K) : Nat → Fin r → Fin c → K :=
  fun J => if J = x.2.1 / c then setEntry x.1 (x.2.1 % c) x.2.2 (g J) else g J

omit [Zero K] [Neg K] in
theorem setRow_fold (cols : List Nat) (hc : cols.Pairwise (· < ·)) : ∀ (xs : List (Nat × Nat × K)) (g : Nat → Fin r → Fin c → K),
    (∀ x ∈ xs, x.2.1 / c ∈ cols) →
    xs.foldlM (fun (row : Row (Fin r → Fin c → K)) x => row.modify (x.2.1 / c) (setEntry x.1 (x.2.1 % c) x.2.2)) (cols.map fun J => (J, g J)) =
      .ok (cols.map fun J => (J, xs.foldl (stepG c) g J)) := by
  intro xs
  induction xs with
  | nil => intro g _; rfl
  | cons x xs ih =>
    intro g h
    have hasc : Row.Asc (cols.map fun J => (J, g J)) := by
      unfold Row.Asc
      rw [List.map_map]
      exact (List.map_id cols).symm ▸ hc
    have hmem : (x.2.1 / c, g (x.2.1 / c)) ∈ cols.map fun J => (J, g J) := List.mem_map.2 ⟨_, h x (by simp), rfl⟩
    rw [List.foldlM_cons, Row.modify_of_mem _ hasc hmem, List.foldl_cons]
    rw [show ((cols.map fun J => (J, g J)).map fun e => if e.1 = x.2.1 / c then (e.1, setEntry x.1 (x.2.1 % c) x.2.2 e.2) else e) =
      cols.map fun J => (J, stepG c g x J) by
        rw [List.map_map]
        apply List.map_congr_left
        intro J _
        simp only [Function.comp, stepG]
        split <;> rfl]
    exact ih _ (fun y hy => h y (List.mem_cons_of_mem _ hy))

omit [Zero K] [Neg K] in
theorem fold_stepG (hcp : 0 < c) (J : Nat) (a : Fin r) (b : Fin c) : ∀ (xs : List (Nat × Nat × K)) (g : Nat → Fin r → Fin c → K),
    (∀ x ∈ xs, ∀ y ∈ xs, x.1 = y.1 → x.2.1 = y.2.1 → x.2.2 = y.2.2) →
    (∀ x ∈ xs, x.1 = a.val → x.2.1 = J * c + b.val → xs.foldl (stepG c) g J a b = x.2.2) ∧
    ((∀ x ∈ xs, ¬ (x.1 = a.val ∧ x.2.1 = J * c + b.val)) → xs.foldl (stepG c) g J a b = g J a b) := by
  intro xs
  induction xs with
  | nil => intro g _; exact ⟨by simp, by simp⟩
  | cons x xs ih =>
    intro g hu
    obtain ⟨i1, i2⟩ := ih (stepG c g x) (fun y hy z hz => hu y (List.mem_cons_of_mem _ hy) z (List.mem_cons_of_mem _ hz))
    have hstep : stepG c g x J a b = if x.1 = a.val ∧ x.2.1 = J * c + b.val then x.2.2 else g J a b := by
      unfold stepG
      by_cases hJ : J = x.2.1 / c
      · rw [if_pos hJ]
        unfold setEntry
        have : (b.val = x.2.1 % c) ↔ x.2.1 = J * c + b.val := by
          have h1 := Nat.div_add_mod x.2.1 c
          rw [← hJ, Nat.mul_comm] at h1
          omega
        by_cases h : x.1 = a.val ∧ x.2.1 = J * c + b.val
        · rw [if_pos h, if_pos ⟨h.1.symm, this.2 h.2⟩]
        · rw [if_neg h, if_neg fun h' => h ⟨h'.1.symm, this.1 h'.2⟩]
      · rw [if_neg hJ, if_neg]
        rintro ⟨-, h⟩
        apply hJ
        rw [h, Nat.mul_comm, Nat.mul_add_div hcp, Nat.div_eq_of_lt b.isLt]; rfl
    rw [List.foldl_cons]
    constructor
    · intro y hy h1 h2
      rcases List.mem_cons.1 hy with rfl | hy
      · by_cases hex : ∃ z ∈ xs, z.1 = a.val ∧ z.2.1 = J * c + b.val
        · obtain ⟨z, hz, z1, z2⟩ := hex
          rw [i1 z hz z1 z2]
          exact hu z (List.mem_cons_of_mem _ hz) y (by simp) (by rw [z1, h1]) (by rw [z2, h2])
        · rw [i2 (fun z hz hz' => hex ⟨z, hz, hz'⟩), hstep, if_pos ⟨h1, h2⟩]
      · exact i1 y hy h1 h2
    · intro h
      rw [i2 (fun z hz => h z (List.mem_cons_of_mem _ hz)), hstep, if_neg (h x (by simp))]

/-- The values of one block row. -/
theorem setRowValues_spec {rows : List (List (Nat × K))} {N : Nat} {L : List (Nat × Nat × K)} (R : RowsOK rows N L) (hN : ∀ t ∈ L, t.1 < N)
    (hr : 0 < r) (hc : 0 < c) (I : Nat) :
    setRowValues r c rows I ((touched L r c I).sort.map fun J => (J, 0)) =
      .ok ((touched L r c I).sort.map fun J => (J, fun a b => (firstAt L (I * r + a.val) (J * c + b.val)).getD 0)) := by
  have hm := mem_assignments R hN r I
  unfold setRowValues
  have e := setRow_fold (r := r) (c := c) (touched L r c I).sort (sort_asc _) (assignments r rows I) (fun _ => 0) (by
    intro x hx
    rw [hm] at hx
    obtain ⟨t, ht, h1, h2⟩ := (firstAt_isSome L _ _).1 ⟨_, hx.2⟩
    rw [Finset.mem_sort]
    unfold touched
    simp only [List.mem_toFinset, List.mem_map, List.mem_filter, decide_eq_true_eq]
    refine ⟨t, ⟨ht, ?_⟩, by rw [h2]⟩
    rw [h1, Nat.mul_comm, Nat.mul_add_div hr, Nat.div_eq_of_lt hx.1]; rfl)
  rw [e]
  congr 1
  apply List.map_congr_left
  intro J _
  congr 1
  funext a b
  have hu : ∀ x ∈ assignments r rows I, ∀ y ∈ assignments r rows I, x.1 = y.1 → x.2.1 = y.2.1 → x.2.2 = y.2.2 := by
    intro x hx y hy h1 h2
    rw [hm] at hx hy
    rw [h1, h2, hy.2] at hx
    exact (Option.some.inj hx.2).symm
  obtain ⟨f1, f2⟩ := fold_stepG hc J a b (assignments r rows I) (fun _ => (0 : Fin r → Fin c → K)) hu
  cases hf : firstAt L (I * r + a.val) (J * c + b.val) with
  | some v => exact f1 (a.val, J * c + b.val, v) ((hm _).2 ⟨a.isLt, hf⟩) rfl rfl
  | none =>
    refine f2 ?_
    rintro x hx ⟨h1, h2⟩
    have := ((hm x).1 hx).2
    rw [h1, h2, hf] at this
    exact absurd this (by simp)

omit [Zero K] [Neg K] in
theorem setValues_spec {rows : List (List (Nat × K))} (A : SpMat (Fin r → Fin c → K)) (Rw : Nat → Row (Fin r → Fin c → K))
    (h : ∀ I < A.n, setRowValues r c rows I (A.row I) = .ok (Rw I)) :
    ∃ A', setValues r c rows A = .ok A' ∧ A'.n = A.n ∧ A'.m = A.m ∧ ∀ I < A.n, A'.row I = Rw I := by
  have key : ∀ k ≤ A.n, ∃ A', (List.range k).foldlM (fun (A : SpMat (Fin r → Fin c → K)) I => do
      let row ← setRowValues r c rows I (A.row I)
      Res.ok { A with row := upd A.row I row }) A = .ok A' ∧ A'.n = A.n ∧ A'.m = A.m ∧ (∀ I < k, A'.row I = Rw I) ∧
        ∀ I, k ≤ I → A'.row I = A.row I := by
    intro k
    induction k with
    | zero => intro _; exact ⟨A, rfl, rfl, rfl, by simp, fun _ _ => rfl⟩
    | succ k ih =>
      intro hk
      obtain ⟨A', h1, h2, h3, h4, h5⟩ := ih (by omega)
      refine ⟨{ A' with row := upd A'.row k (Rw k) }, ?_, h2, h3, ?_, ?_⟩
      · rw [List.range_succ, List.foldlM_append, h1, Res.ok_bind, List.foldlM_cons, h5 k (le_refl _), h k (by omega), Res.ok_bind]
        rfl
      · intro I hI
        by_cases e : I = k
        · subst e; simp [upd]
        · simp [upd, e]; exact h4 I (by omega)
      · intro I hI
        have : I ≠ k := by omega
        simp [upd, this]; exact h5 I (by omega)
  obtain ⟨A', h1, h2, h3, h4, -⟩ := key A.n (le_refl _)
  exact ⟨A', h1, h2, h3, h4⟩

end MM
end Istl
