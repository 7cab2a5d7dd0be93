import Verif.Lemmas.Ildl
import Verif.Props.C17

/-! # C22: incomplete LDL^T factorisation and back substitution -/

namespace Istl
open Ilu Gsetc Ildl
variable {R V : Type} [Ring R] [AddCommGroup V] [Module R V]

theorem Row.ext_of_val {r s : Row R} (hr : r.Asc) (hc : r.map Prod.fst = s.map Prod.fst)
    (hv : ∀ e ∈ r, r.val e.1 = s.val e.1) : r = s := by
  have hs : s.Asc := asc_of_cols hc.symm hr
  apply List.ext_getElem
  · have := congrArg List.length hc; simpa using this
  · intro k h1 h2
    have hk : (r[k]).1 = (s[k]).1 := by
      have : (r.map Prod.fst)[k]'(by simpa using h1) = (s.map Prod.fst)[k]'(by simpa using h2) := by congr 1
      simpa using this
    refine Prod.ext hk ?_
    have m1 : r[k] ∈ r := List.getElem_mem h1
    have m2 : s[k] ∈ s := List.getElem_mem h2
    have v1 : r.val r[k].1 = r[k].2 := Row.val_of_mem hr m1
    have v2 : s.val s[k].1 = s[k].2 := Row.val_of_mem hs m2
    rw [← v1, hv _ m1, hk, v2]

theorem val_map_mul (X : Row R) (dinv : Nat → R) (j : Nat) :
    Row.val (X.map fun e => (e.1, e.2 * dinv e.1)) j = X.val j * dinv j := by
  induction X with
  | nil => simp [Row.val]
  | cons e X ih =>
    by_cases h : e.1 = j
    · subst h; rw [List.map_cons, val_cons_eq]; rw [show e :: X = (e.1, e.2) :: X from rfl, val_cons_eq]
    · rw [List.map_cons, val_cons_ne _ _ h, ih]; rw [show e :: X = (e.1, e.2) :: X from rfl, val_cons_ne _ _ h]

theorem val_append_right {r s : Row R} {k : Nat} (h : ∀ e ∈ r, e.1 ≠ k) : Row.val (r ++ s) k = Row.val s k := by
  unfold Row.val
  rw [List.find?_append]
  have : r.find? (fun e => e.1 == k) = none := by
    rw [List.find?_eq_none]; intro e he; simpa using h e he
  rw [this, Option.none_or]

/-- One row of the decomposition on finished rows above. -/
theorem ildlRow_spec (I : BlockInv R) (tr : R → R) (h0 : tr 0 = 0) (rows : Nat → Row R) (dinv : Nat → R) (i : Nat) (r : Row R)
    (hr : r.Asc) {a : R} (ha : (i, a) ∈ r) (hrows : ∀ j, j < i → (rows j).Asc ∧ (j, dinv j) ∈ rows j) :
    ∃ X : Row R, X.Asc ∧ X.map Prod.fst = (r.filter fun e => decide (e.1 < i)).map Prod.fst ∧
      (∀ j b, (j, b) ∈ r → j < i → X.val j = b - ∑ k ∈ Finset.range j, X.val k * tr ((rows j).val k)) ∧
      rowStep I tr rows i r =
        match I.inv (a - ∑ k ∈ Finset.range i, X.val k * tr (X.val k * dinv k)) with
        | some b => .ok ((X.map fun e => (e.1, e.2 * dinv e.1)) ++ (i, b) :: r.filter fun e => decide (i < e.1))
        | none => .throw .matrixBlockError := by
  obtain ⟨X, h1, h2, h3, h4⟩ := phase1_spec tr h0 rows i (fun j hj => ⟨(hrows j hj).1, _, (hrows j hj).2⟩) r [] hr
    (by simp [Row.Asc]) (by simp) ⟨(i, a), ha, le_refl _⟩
  simp only [List.nil_append] at h1 h3 h4
  have hX : ∀ e ∈ X, e.1 < i := by
    intro e he
    have : e.1 ∈ (r.filter fun e => decide (e.1 < i)).map Prod.fst := h2 ▸ List.mem_map_of_mem he
    obtain ⟨x, hx, hxe⟩ := List.mem_map.mp this
    rw [← hxe]; simpa using (List.mem_filter.mp hx).2
  have hge : (r.filter fun e => decide (i ≤ e.1)) = (i, a) :: r.filter fun e => decide (i < e.1) := by
    rw [← dropWhile_lt hr]; exact dropWhile_diag hr ha
  refine ⟨X, h3, h2, h4, ?_⟩
  unfold rowStep
  rw [h1, Res.ok_bind]
  simp only [hge, ne_eq, not_true_eq_false, if_false]
  rw [phase2_fold tr rows dinv X [] a fun e he => hrows e.1 (hX e he), Res.ok_bind]
  simp only [List.nil_append]
  have hsum : (X.map fun e => e.2 * tr (e.2 * dinv e.1)).sum =
      ∑ k ∈ Finset.range i, Row.val X k * tr (Row.val X k * dinv k) :=
    (Row.sum_val X h3 i hX (fun k b => b * tr (b * dinv k)) (by intro k; simp)).symm
  rw [hsum]
  cases I.inv (a - ∑ k ∈ Finset.range i, Row.val X k * tr (Row.val X k * dinv k)) <;> rfl

/-- entries of the new row -/
theorem newRow_val {X : Row R} {r : Row R} {i : Nat} {dinv : Nat → R} {b : R}
    (hX : X.map Prod.fst = (r.filter fun e => decide (e.1 < i)).map Prod.fst) (j : Nat) :
    Row.val ((X.map fun e => (e.1, e.2 * dinv e.1)) ++ (i, b) :: r.filter fun e => decide (i < e.1)) j =
      if j < i then X.val j * dinv j else if j = i then b else r.val j := by
  have hlt : ∀ e ∈ (X.map fun e => (e.1, e.2 * dinv e.1)), e.1 < i := by
    intro e he
    obtain ⟨x, hx, rfl⟩ := List.mem_map.mp he
    have : x.1 ∈ (r.filter fun e => decide (e.1 < i)).map Prod.fst := hX ▸ List.mem_map_of_mem hx
    obtain ⟨y, hy, hye⟩ := List.mem_map.mp this
    simp only; rw [← hye]; simpa using (List.mem_filter.mp hy).2
  by_cases hji : j < i
  · rw [if_pos hji, val_append_left, val_map_mul]
    intro e he
    rcases List.mem_cons.mp he with rfl | he
    · simp; omega
    · have := (List.mem_filter.mp he).2; simp at this; omega
  · rw [if_neg hji, val_append_right (fun e he => by have := hlt e he; omega)]
    by_cases hj : j = i
    · subst hj; rw [if_pos rfl, val_cons_eq]
    · rw [if_neg hj, val_cons_ne _ _ (Ne.symm hj), val_filter_gt (by omega)]

theorem newRow_cols {X : Row R} {r : Row R} (hr : r.Asc) {i : Nat} {dinv : Nat → R} {a b : R} (ha : (i, a) ∈ r)
    (hX : X.map Prod.fst = (r.filter fun e => decide (e.1 < i)).map Prod.fst) :
    ((X.map fun e => (e.1, e.2 * dinv e.1)) ++ (i, b) :: r.filter fun e => decide (i < e.1)).map Prod.fst = r.map Prod.fst := by
  conv_rhs => rw [row_split hr ha]
  rw [List.map_append, List.map_append, List.map_map, List.map_cons, List.map_cons, ← hX]
  rfl

theorem ldlt_eq (tr : R → R) (h0 : tr 0 = 0) (h1 : tr 1 = 1) (F : SpMat R) (D : Nat → R) {i j : Nat} (hi : i < F.n) (hj : j ≤ i) :
    ldlt tr F D i j = (∑ k ∈ Finset.range j, F.entry i k * D k * tr (F.entry j k)) + if j < i then F.entry i j * D j else D i := by
  have e : ∀ k ∈ Finset.range F.n, lowerFactor F i k * D k * tr (lowerFactor F j k) =
      (if k < j then F.entry i k * D k * tr (F.entry j k) else 0) +
        if k = j then (if j < i then F.entry i j * D j else D i) else 0 := by
    intro k _
    unfold lowerFactor
    rcases Nat.lt_trichotomy k j with h | h | h
    · simp [h, show k < i by omega, show k ≠ j by omega]
    · subst h
      rcases Nat.lt_or_ge k i with h' | h'
      · simp [h', h1]
      · obtain rfl : k = i := by omega
        simp [h1]
    · simp [show ¬ k < j by omega, show k ≠ j by omega, h0]
  unfold ldlt
  rw [Finset.sum_congr rfl e, Finset.sum_add_distrib, Finset.sum_ite_eq' (Finset.range F.n) j]
  simp only [Finset.mem_range, show j < F.n by omega, if_true]
  congr 1
  rw [← Finset.sum_filter]
  apply Finset.sum_congr _ fun _ _ => rfl
  ext k; simp; omega

theorem ildl_rows (I : BlockInv R) (tr : R → R) (A F : SpMat R) (h : decompose I tr A = .ok F) :
    F.n = A.n ∧ F.m = A.m ∧ ∀ i, i < A.n →
      rowStep I tr (fun j => if j < i then F.row j else A.row j) i (A.row i) = .ok (F.row i) := by
  unfold decompose at h
  rw [Res.bind_eq_ok] at h
  obtain ⟨rows, h1, h2⟩ := h
  injection h2 with h2
  subst h2
  refine ⟨rfl, rfl, fun i hi => ?_⟩
  have := (forRangeM_gs (X := Row R) id _ (fun i x y => rowStep I tr x i (x i) = .ok y) A.n
    (by
      intro i _ s s' hs
      rw [Res.bind_eq_ok] at hs
      obtain ⟨y, h1, h2⟩ := hs
      injection h2 with h2
      exact ⟨y, h2.symm, h1⟩) A.row rows h1).2 i hi
  simp only [id_eq, lt_irrefl, if_false] at this
  exact this

theorem ildl_finished (I : BlockInv R) (tr : R → R) (h0 : tr 0 = 0) (A F : SpMat R) (hA : A.WF) (hD : A.HasDiag)
    (h : decompose I tr A = .ok F) : ∀ i, i < A.n → (F.row i).map Prod.fst = (A.row i).map Prod.fst ∧ (F.row i).Asc ∧
      ∃ p, p * F.entry i i = 1 ∧ F.entry i i * p = 1 ∧ (i, F.entry i i) ∈ F.row i := by
  obtain ⟨-, -, hr⟩ := ildl_rows I tr A F h
  intro i
  induction i using Nat.strong_induction_on with
  | _ i ih =>
    intro hi
    obtain ⟨a, ha⟩ := hD i hi
    obtain ⟨X, -, hXc, -, hstep⟩ := ildlRow_spec I tr h0 (fun j => if j < i then F.row j else A.row j) (fun j => F.entry j j) i
      (A.row i) (hA i hi).1 ha (by
        intro j hj
        simp only [if_pos hj]
        obtain ⟨-, h2, p, -, -, h5⟩ := ih j hj (by omega)
        exact ⟨h2, h5⟩)
    rw [hr i hi] at hstep
    cases hv : I.inv (a - ∑ k ∈ Finset.range i, X.val k * tr (X.val k * F.entry k k)) with
    | none => rw [hv] at hstep; cases hstep
    | some b =>
      rw [hv] at hstep
      injection hstep with hstep
      have hcols := newRow_cols (dinv := fun j => F.entry j j) (b := b) (hA i hi).1 ha hXc
      rw [← hstep] at hcols
      have hasc := asc_of_cols hcols (hA i hi).1
      have hmem : (i, b) ∈ F.row i := by rw [hstep]; simp
      have he : F.entry i i = b := Row.val_of_mem hasc hmem
      rw [I.inv_iff] at hv
      exact ⟨hcols, hasc, _, by rw [he]; exact hv.1, by rw [he]; exact hv.2, by rw [he]; exact hmem⟩

/-- When `bildl_decompose` succeeds, `L D L^T` agrees with `A` on the stored lower triangle and diagonal; blocks need not commute. -/
theorem C22_ldl_reproduces_on_pattern (I : BlockInv R) {tr : R → R} (ht : IsTranspose tr) (A F : SpMat R) (hA : A.WF)
    (hD : A.HasDiag) (h : decompose I tr A = .ok F) : ∃ D, IsLDL tr A F D := by
  have h0 := IsTranspose.zero ht
  have hfin := ildl_finished I tr h0 A F hA hD h
  obtain ⟨hn, hm, hr⟩ := ildl_rows I tr A F h
  have hex : ∀ i, ∃ p, i < A.n → p * F.entry i i = 1 ∧ F.entry i i * p = 1 := by
    intro i
    by_cases hi : i < A.n
    · obtain ⟨-, -, p, h1, h2, -⟩ := hfin i hi; exact ⟨p, fun _ => ⟨h1, h2⟩⟩
    · exact ⟨0, fun h => absurd h hi⟩
  choose D hDinv using hex
  have main : ∀ i, i < A.n → ∀ a, (i, a) ∈ A.row i → (∀ j b, (j, b) ∈ A.row i → j < i →
      F.entry i j * D j = b - ∑ k ∈ Finset.range j, F.entry i k * D k * tr (F.entry j k)) ∧
      D i = a - ∑ k ∈ Finset.range i, F.entry i k * D k * tr (F.entry i k) ∧ ∀ j, i < j → F.entry i j = A.entry i j := by
    intro i hi a ha
    obtain ⟨X, -, hXc, hXr, hstep⟩ := ildlRow_spec I tr h0 (fun j => if j < i then F.row j else A.row j) (fun j => F.entry j j) i
      (A.row i) (hA i hi).1 ha (by
        intro j hj
        simp only [if_pos hj]
        obtain ⟨-, h2, p, -, -, h5⟩ := hfin j (by omega)
        exact ⟨h2, h5⟩)
    rw [hr i hi] at hstep
    cases hv : I.inv (a - ∑ k ∈ Finset.range i, X.val k * tr (X.val k * F.entry k k)) with
    | none => rw [hv] at hstep; cases hstep
    | some b =>
      rw [hv] at hstep
      injection hstep with hstep
      have hval : ∀ j, F.entry i j = if j < i then X.val j * F.entry j j else if j = i then b else (A.row i).val j := by
        intro j
        show (F.row i).val j = _
        rw [hstep]; exact newRow_val (dinv := fun j => F.entry j j) (b := b) hXc j
      have hX : ∀ j, j < i → F.entry i j * D j = X.val j := by
        intro j hj
        rw [hval j, if_pos hj, mul_assoc, (hDinv j (by omega)).2, mul_one]
      have hXF : ∀ j, j < i → X.val j * F.entry j j = F.entry i j := by
        intro j hj; rw [hval j, if_pos hj]
      refine ⟨fun j c hjc hj => ?_, ?_, fun j hj => ?_⟩
      · rw [hX j hj, hXr j c hjc hj]
        congr 1
        apply Finset.sum_congr rfl
        intro k hk
        rw [Finset.mem_range] at hk
        rw [hX k (by omega)]
        simp only [if_pos hj]; rfl
      · have hb : F.entry i i = b := by rw [hval i]; simp
        rw [I.inv_iff, ← hb] at hv
        have hu : D i = a - ∑ k ∈ Finset.range i, X.val k * tr (X.val k * F.entry k k) := by
          have h3 := (hDinv i hi).1
          calc D i = D i * (F.entry i i * (a - ∑ k ∈ Finset.range i, X.val k * tr (X.val k * F.entry k k))) := by rw [hv.2, mul_one]
            _ = _ := by rw [← mul_assoc, h3, one_mul]
        rw [hu]
        congr 1
        apply Finset.sum_congr rfl
        intro k hk
        rw [Finset.mem_range] at hk
        rw [hXF k hk, hX k hk]
      · rw [hval j, if_neg (by omega), if_neg (by omega)]; rfl
  refine ⟨D, hn, hm, fun i hi => (hfin i hi).1, fun i hi => hDinv i hi, fun i j hji hij => ?_, fun i j hij hh => ?_⟩
  · obtain ⟨hi, b, hb⟩ := hij
    obtain ⟨a, ha⟩ := hD i hi
    obtain ⟨m1, m2, -⟩ := main i hi a ha
    rw [ldlt_eq tr h0 ht.one F D (by omega) hji]
    rcases Nat.lt_or_ge j i with hlt | hge
    · rw [if_pos hlt, m1 j b hb hlt]
      have : A.entry i j = b := Row.val_of_mem (hA i hi).1 hb
      rw [this]; abel
    · obtain rfl : j = i := by omega
      rw [if_neg (by omega), m2]
      have : A.entry j j = a := Row.val_of_mem (hA j hi).1 ha
      rw [this]; abel
  · obtain ⟨hi, b, hb⟩ := hh
    obtain ⟨a, ha⟩ := hD i hi
    exact (main i hi a ha).2.2 j hij

/-- For a symmetric matrix (`A_ji = A_ij^T`, symmetric pattern) the product agrees with `A` on the whole stored pattern. -/
theorem C22_symmetric {tr : R → R} (ht : IsTranspose tr) (A F : SpMat R) (D : Nat → R) (hD : A.HasDiag) (hF : IsLDL tr A F D)
    (hsym : ∀ i j, A.Has i j → A.Has j i ∧ A.entry j i = tr (A.entry i j)) :
    ∀ i j, A.Has i j → ldlt tr F D i j = A.entry i j := by
  have h0 := IsTranspose.zero ht
  have hsum : ∀ {n : Nat} (f : Nat → R), tr (∑ k ∈ Finset.range n, f k) = ∑ k ∈ Finset.range n, tr (f k) := by
    intro n f
    induction n with
    | zero => simp [h0]
    | succ n ih => rw [Finset.sum_range_succ, Finset.sum_range_succ, ht.add, ih]
  have hDsym : ∀ i, i < A.n → tr (D i) = D i := by
    intro i
    induction i using Nat.strong_induction_on with
    | _ i ih =>
      intro hi
      have hp := hF.product i i (le_refl _) ⟨hi, hD i hi⟩
      rw [ldlt_eq tr h0 ht.one F D (by rw [hF.n]; exact hi) (le_refl _), if_neg (by omega)] at hp
      have hs := (hsym i i ⟨hi, hD i hi⟩).2
      have hd : D i = A.entry i i - ∑ k ∈ Finset.range i, F.entry i k * D k * tr (F.entry i k) := by rw [← hp]; abel
      have htr : tr (∑ k ∈ Finset.range i, F.entry i k * D k * tr (F.entry i k)) =
          ∑ k ∈ Finset.range i, F.entry i k * D k * tr (F.entry i k) := by
        rw [hsum]
        apply Finset.sum_congr rfl
        intro k hk
        rw [Finset.mem_range] at hk
        rw [ht.mul, ht.mul, ht.tr_tr, ih k hk (by omega), mul_assoc]
      have h2 : tr (D i) + tr (∑ k ∈ Finset.range i, F.entry i k * D k * tr (F.entry i k)) = tr (A.entry i i) := by
        rw [← ht.add]; congr 1; rw [← hp, add_comm]
      rw [htr, ← hs, ← hp, add_comm] at h2
      exact add_left_cancel h2
  intro i j hij
  rcases Nat.le_total j i with h | h
  · exact hF.product i j h hij
  · obtain ⟨h1, h2⟩ := hsym i j hij
    have h3 := hF.product j i h h1
    have h4 : ldlt tr F D i j = tr (ldlt tr F D j i) := by
      unfold ldlt
      rw [hsum]
      apply Finset.sum_congr rfl
      intro k hk
      rw [Finset.mem_range, hF.n] at hk
      rw [ht.mul, ht.mul, ht.tr_tr, hDsym k hk, mul_assoc]
    rw [h4, h3, h2, ht.tr_tr]

theorem forRangeM_throw {S : Type} {f : Nat → S → Res S} {s : S} {e : Exc} {i : Nat} (h : forRangeM (i + 1) f s = .throw e) :
    ∀ k, forRangeM (i + 1 + k) f s = .throw e := by
  intro k
  induction k with
  | zero => exact h
  | succ k ih => rw [← Nat.add_assoc, forRangeM_succ, ih]; rfl

/-- **C22.** A missing diagonal entry is reported: if the rows before row `i` have been decomposed and row `i` stores something right of the
diagonal but not the diagonal, `bildl_decompose` throws `ISTLError`. -/
theorem C22_missing_diagonal (I : BlockInv R) {tr : R → R} (ht : IsTranspose tr) (A : SpMat R) (hA : A.WF) {i : Nat} (hi : i < A.n)
    (hD : ∀ k < i, (A.row k).Has k) (hno : ¬ (A.row i).Has i) (hmore : ∃ e ∈ A.row i, i < e.1) (F : SpMat R)
    (hF : decompose I tr { A with n := i } = .ok F) : decompose I tr A = .throw .istlError := by
  have h0 := IsTranspose.zero ht
  have hfin := ildl_finished I tr h0 { A with n := i } F (fun k hk => hA k (by have : k < i := hk; omega)) hD hF
  unfold decompose at hF ⊢
  rw [Res.bind_eq_ok] at hF
  obtain ⟨rows, h1, h2⟩ := hF
  injection h2 with h2
  subst h2
  have hsame : ∀ (n : Nat) (s s' : Nat → Row R), forRangeM n (fun i rows => do
      let r ← rowStep I tr rows i (rows i)
      .ok (upd rows i r)) s = .ok s' → ∀ k, n ≤ k → s' k = s k := by
    intro n
    induction n with
    | zero => intro s s' h k _; injection h with h; rw [h]
    | succ n ih =>
      intro s s' h k hk
      rw [forRangeM_succ, Res.bind_eq_ok] at h
      obtain ⟨t, h3, h4⟩ := h
      rw [Res.bind_eq_ok] at h4
      obtain ⟨r, _, h5⟩ := h4
      injection h5 with h5
      rw [← h5, upd_ne _ _ (by omega), ih s t h3 k (by omega)]
  have hri := hsame i A.row rows h1 i (le_refl _)
  obtain ⟨e0, he0, hlt⟩ := hmore
  obtain ⟨X, q1, -, -, -⟩ := phase1_spec tr h0 rows i (fun j hj => ⟨(hfin j hj).2.1, by
      obtain ⟨-, -, p, -, -, h5⟩ := hfin j hj; exact ⟨_, h5⟩⟩) (A.row i) [] (hA i hi).1
    (by simp [Row.Asc]) (by simp) ⟨e0, he0, le_of_lt hlt⟩
  have hstep : rowStep I tr rows i (rows i) = .throw .istlError := by
    rw [hri]
    unfold rowStep
    rw [q1, Res.ok_bind]
    cases hc : (A.row i).filter fun e => decide (i ≤ e.1) with
    | nil =>
      have : e0 ∈ (A.row i).filter fun e => decide (i ≤ e.1) := List.mem_filter.mpr ⟨he0, by simpa using le_of_lt hlt⟩
      rw [hc] at this; cases this
    | cons e rest =>
      obtain ⟨j, a⟩ := e
      have hm : (j, a) ∈ (A.row i).filter fun e => decide (i ≤ e.1) := by rw [hc]; simp
      have hji : j ≠ i := by
        rintro rfl
        exact hno ⟨a, (List.mem_filter.mp hm).1⟩
      simp only [ne_eq, hji, not_false_eq_true, if_true]
  have hth : forRangeM (i + 1) (fun i rows => do
      let r ← rowStep I tr rows i (rows i)
      .ok (upd rows i r)) A.row = .throw .istlError := by
    rw [forRangeM_succ, h1, Res.ok_bind, hstep]
    rfl
  have := forRangeM_throw hth (A.n - (i + 1))
  rw [show i + 1 + (A.n - (i + 1)) = A.n by omega] at this
  rw [this]
  rfl

/-- With a stored diagonal `bildl_decompose` succeeds exactly when such a factorisation exists (it is unique), and throws
`MatrixBlockError` otherwise. -/
theorem C22_complete (I : BlockInv R) {tr : R → R} (ht : IsTranspose tr) (A : SpMat R) (hA : A.WF) (hD : A.HasDiag) :
    (∀ F D, IsLDL tr A F D → ∃ F', decompose I tr A = .ok F' ∧ ∀ i, i < A.n → F'.row i = F.row i) ∧
    ((¬ ∃ F D, IsLDL tr A F D) → decompose I tr A = .throw .matrixBlockError) := by
  have h0 := IsTranspose.zero ht
  constructor
  · intro F D hF
    have hasc : ∀ i, i < A.n → (F.row i).Asc := fun i hi => asc_of_cols (hF.pattern i hi) (hA i hi).1
    have hdiag : ∀ i, i < A.n → (i, F.entry i i) ∈ F.row i := by
      intro i hi
      obtain ⟨b, hb⟩ := hD i hi
      have : i ∈ (F.row i).map Prod.fst := (hF.pattern i hi) ▸ List.mem_map_of_mem (f := Prod.fst) hb
      obtain ⟨x, hx, hxe⟩ := List.mem_map.mp this
      have hx' : (i, x.2) ∈ F.row i := by
        have : x = (i, x.2) := Prod.ext hxe rfl
        rw [this] at hx; exact hx
      have : F.entry i i = x.2 := Row.val_of_mem (hasc i hi) hx'
      rw [this]; exact hx'
    have key : ∀ t, t ≤ A.n → forRangeM t (fun i rows => do
        let r ← rowStep I tr rows i (rows i)
        .ok (upd rows i r)) A.row = .ok (fun i => if i < t then F.row i else A.row i) := by
      intro t
      induction t with
      | zero => intro _; simp [forRangeM_zero]
      | succ t ih =>
        intro htn
        rw [forRangeM_succ, ih (by omega), Res.ok_bind]
        set mixed : Nat → Row R := fun i => if i < t then F.row i else A.row i with hmixed
        have hmt : mixed t = A.row t := by simp [hmixed]
        have hmj : ∀ j, j < t → mixed j = F.row j := by intro j hj; simp [hmixed, hj]
        obtain ⟨a, ha⟩ := hD t (by omega)
        obtain ⟨X, hXa, hXc, hXr, hstep⟩ := ildlRow_spec I tr h0 mixed (fun j => F.entry j j) t (A.row t) (hA t (by omega)).1 ha
          (by intro j hj; rw [hmj j hj]; exact ⟨hasc j (by omega), hdiag j (by omega)⟩)
        have hAt : ∀ j, j < t → (A.row t).Has j → F.entry t j * D j = A.entry t j -
            ∑ k ∈ Finset.range j, F.entry t k * D k * tr (F.entry j k) := by
          intro j hj hh
          have := hF.product t j (by omega) ⟨by omega, hh⟩
          rw [ldlt_eq tr h0 ht.one F D (by rw [hF.n]; omega) (by omega), if_pos hj] at this
          rw [← this]; abel
        have hXv : ∀ j, j < t → X.val j = F.entry t j * D j := by
          intro j
          induction j using Nat.strong_induction_on with
          | _ j ihj =>
            intro hj
            by_cases hh : (A.row t).Has j
            · obtain ⟨b, hb⟩ := hh
              rw [hXr j b hb hj, hAt j hj ⟨b, hb⟩]
              have : A.entry t j = b := Row.val_of_mem (hA t (by omega)).1 hb
              rw [this]
              congr 1
              apply Finset.sum_congr rfl
              intro k hk
              rw [Finset.mem_range] at hk
              rw [ihj k hk (by omega), hmj j hj]; rfl
            · have h1 : X.val j = 0 := by
                apply Row.val_of_not_mem
                intro b hb
                have : j ∈ ((A.row t).filter fun e => decide (e.1 < t)).map Prod.fst := hXc ▸ List.mem_map_of_mem (f := Prod.fst) hb
                obtain ⟨x, hx, rfl⟩ := List.mem_map.mp this
                exact hh ⟨x.2, (List.mem_filter.mp hx).1⟩
              have h2 : F.entry t j = 0 := by
                apply Row.val_of_not_mem
                intro b hb
                have : j ∈ (A.row t).map Prod.fst := (hF.pattern t (by omega)) ▸ List.mem_map_of_mem (f := Prod.fst) hb
                obtain ⟨x, hx, rfl⟩ := List.mem_map.mp this
                exact hh ⟨x.2, hx⟩
              rw [h1, h2, zero_mul]
        have hXF : ∀ k, k < t → X.val k * F.entry k k = F.entry t k := by
          intro k hk; rw [hXv k hk, mul_assoc, (hF.pivot k (by omega)).1, mul_one]
        have hpiv : a - ∑ k ∈ Finset.range t, X.val k * tr (X.val k * F.entry k k) = D t := by
          have := hF.product t t (le_refl _) ⟨by omega, a, ha⟩
          rw [ldlt_eq tr h0 ht.one F D (by rw [hF.n]; omega) (le_refl _), if_neg (by omega)] at this
          have he : A.entry t t = a := Row.val_of_mem (hA t (by omega)).1 ha
          rw [he] at this
          have hs : ∑ k ∈ Finset.range t, X.val k * tr (X.val k * F.entry k k) =
              ∑ k ∈ Finset.range t, F.entry t k * D k * tr (F.entry t k) := by
            apply Finset.sum_congr rfl
            intro k hk
            rw [Finset.mem_range] at hk
            rw [hXF k hk, hXv k hk]
          rw [hs, ← this]; abel
        have hinv : I.inv (D t) = some (F.entry t t) := (I.inv_iff _ _).mpr (hF.pivot t (by omega))
        rw [hmt, hstep, hpiv, hinv]
        simp only [Res.ok_bind]
        have hrow : (X.map fun e => (e.1, e.2 * F.entry e.1 e.1)) ++ (t, F.entry t t) :: (A.row t).filter (fun e => decide (t < e.1)) =
            F.row t := by
          have hcols := newRow_cols (dinv := fun j => F.entry j j) (b := F.entry t t) (hA t (by omega)).1 ha hXc
          apply Row.ext_of_val (asc_of_cols hcols (hA t (by omega)).1)
          · rw [hcols, hF.pattern t (by omega)]
          · intro e he
            rw [newRow_val (dinv := fun j => F.entry j j) (b := F.entry t t) hXc e.1]
            split
            · rename_i hlt; exact hXF e.1 hlt
            · split
              · rename_i heq; rw [heq]; rfl
              · symm
                have hmem : e.1 ∈ (A.row t).map Prod.fst := hcols ▸ List.mem_map_of_mem he
                obtain ⟨x, hx, hxe⟩ := List.mem_map.mp hmem
                exact hF.upper t e.1 (by omega) ⟨by omega, x.2, by rw [← hxe]; exact hx⟩
        rw [hrow]
        congr 1
        funext k
        by_cases hk : k = t
        · subst hk; simp
        · rw [upd_ne _ _ hk]
          simp only [hmixed]
          have : k < t + 1 ↔ k < t := by omega
          simp [this]
    refine ⟨{ A with row := fun i => if i < A.n then F.row i else A.row i }, ?_, fun i hi => by simp [hi]⟩
    unfold decompose
    rw [key A.n (le_refl _), Res.ok_bind]
  · intro hno
    have key : ∀ t, t ≤ A.n → (∃ rows, forRangeM t (fun i rows => do
          let r ← rowStep I tr rows i (rows i)
          .ok (upd rows i r)) A.row = .ok rows ∧ (∀ k, t ≤ k → rows k = A.row k) ∧
          ∀ j, j < t → (rows j).Asc ∧ ∃ f, (j, f) ∈ rows j) ∨
        forRangeM t (fun i rows => do
          let r ← rowStep I tr rows i (rows i)
          .ok (upd rows i r)) A.row = .throw .matrixBlockError := by
      intro t
      induction t with
      | zero => intro _; left; exact ⟨A.row, rfl, fun _ _ => rfl, fun j hj => by omega⟩
      | succ t ih =>
        intro htn
        rcases ih (by omega) with ⟨rows, g1, g2, g3⟩ | g
        · rw [forRangeM_succ, g1, Res.ok_bind]
          obtain ⟨a, ha⟩ := hD t (by omega)
          have hrt : rows t = A.row t := g2 t (le_refl _)
          have hchoice : ∀ j, ∃ f, j < t → (j, f) ∈ rows j := by
            intro j
            by_cases hj : j < t
            · obtain ⟨f, hf⟩ := (g3 j hj).2; exact ⟨f, fun _ => hf⟩
            · exact ⟨0, fun h => absurd h hj⟩
          choose dinv hdinv using hchoice
          obtain ⟨X, -, hXc, -, hstep⟩ := ildlRow_spec I tr h0 rows dinv t (rows t) (hrt ▸ (hA t (by omega)).1) (hrt ▸ ha)
            fun j hj => ⟨(g3 j hj).1, hdinv j hj⟩
          rw [hstep]
          cases I.inv (a - ∑ k ∈ Finset.range t, X.val k * tr (X.val k * dinv k)) with
          | none => right; rfl
          | some b =>
            left
            refine ⟨_, rfl, fun k hk => by rw [upd_ne _ _ (by omega)]; exact g2 k (by omega), fun j hj => ?_⟩
            by_cases hjt : j = t
            · subst hjt
              rw [upd_same]
              exact ⟨asc_of_cols (newRow_cols (hrt ▸ (hA j (by omega)).1) (hrt ▸ ha) hXc) (hrt ▸ (hA j (by omega)).1), b, by simp⟩
            · rw [upd_ne _ _ hjt]; exact g3 j (by omega)
        · right; rw [forRangeM_succ, g, Res.throw_bind]
    rcases key A.n (le_refl _) with ⟨rows, g, -⟩ | g
    · exfalso
      obtain ⟨D, h⟩ := C22_ldl_reproduces_on_pattern I ht A { A with row := rows } hA hD (by unfold decompose; rw [g, Res.ok_bind])
      exact hno ⟨_, D, h⟩
    · unfold decompose; rw [g, Res.throw_bind]

/-! ### Back substitution -/

theorem solveL_spec (F : SpMat R) (hS : F.Sorted) (hD : F.HasDiag) (v d : Nat → V) :
    ∃ y, solveL F v d = .ok y ∧ (∀ k, F.n ≤ k → y k = v k) ∧ ∀ i, i < F.n → y i + F.partSum (Ilu.act (V := V)) (· < i) y i = d i := by
  have hbody : ∀ i, i < F.n → ∀ s : Nat → V, solveLStep F d i s =
      .ok (upd s i (d i - F.partSum (Ilu.act (V := V)) (· < i) s i)) := by
    intro i hi s
    obtain ⟨b, hb⟩ := hD i hi
    simp only [solveLStep, solveLTStep, dropWhile_diag (hS i hi) hb, takeWhile_lt (hS i hi)]
    congr 1
    have : ∀ (l : List (Nat × R)) (x : V), (∀ e ∈ l, e.1 < i) →
        l.foldl (fun v e => upd v i (v i - e.2 • v e.1)) (upd s i x) =
          upd s i (x - (l.map fun e => Ilu.act e.2 (s e.1)).sum) := by
      intro l
      induction l with
      | nil => intro x _; simp
      | cons e l ih =>
        intro x hl
        have he := hl e (by simp)
        rw [List.foldl_cons, upd_same, upd_ne _ _ (show e.1 ≠ i by omega)]
        have : upd (upd s i x) i (x - e.2 • s e.1) = upd s i (x - e.2 • s e.1) := by
          funext k; by_cases hk : k = i
          · subst hk; simp
          · rw [upd_ne _ _ hk, upd_ne _ _ hk, upd_ne _ _ hk]
        rw [this, ih _ fun e he => hl e (by simp [he]), List.map_cons, List.sum_cons, ← sub_sub]
        rfl
    rw [this _ _ (by intro e he; simpa using (List.mem_filter.mp he).2)]
    rfl
  obtain ⟨y, hy⟩ : ∃ y, solveL F v d = .ok y := by
    refine (forRangeM_dich _ (fun _ => True) .istlError F.n ?_ (fun i hi h => absurd trivial h) v).1 fun _ _ => trivial
    intro i hi _ s
    exact ⟨_, hbody i hi s⟩
  have hyr := forRangeM_gs id _ (fun i x z => z = d i - F.partSum (Ilu.act (V := V)) (· < i) x i) F.n (by
    intro i hi s s' hs
    rw [hbody i hi s] at hs
    injection hs with hs
    exact ⟨_, hs.symm, rfl⟩) v y hy
  refine ⟨y, hy, hyr.1, fun i hi => ?_⟩
  have := hyr.2 i hi
  simp only [id_eq] at this
  rw [partSum_congr Ilu.act F (· < i) (x := fun j => if j < i then y j else v j) (y := y) i (by intro j hj; simp [hj])] at this
  nth_rewrite 1 [this]
  abel

theorem solveD_spec (F : SpMat R) (hS : F.Sorted) (hD : F.HasDiag) (isLower : Bool)
    (hl : isLower = true → ∀ i, i < F.n → ∀ e ∈ F.row i, e.1 ≤ i) (v : Nat → V) :
    ∃ y, solveD F isLower v = .ok y ∧ (∀ k, F.n ≤ k → y k = v k) ∧ ∀ i, i < F.n → y i = F.entry i i • v i := by
  have key : ∀ t, t ≤ F.n → ∃ y, forRangeM t (fun i v =>
      if isLower then
        match (F.row i).getLast? with
        | none => Res.ub
        | some e => .ok (upd v i (e.2 • v i))
      else do
        let p ← (F.row i).find i
        match p with
        | none => .ub
        | some q => do
          let e ← rd (F.row i) q
          .ok (upd v i (e.2 • v i))) v = .ok y ∧ (∀ k, t ≤ k → y k = v k) ∧ ∀ i, i < t → y i = F.entry i i • v i := by
    intro t
    induction t with
    | zero => intro _; exact ⟨v, rfl, fun _ _ => rfl, fun i hi => by omega⟩
    | succ t ih =>
      intro ht
      obtain ⟨y, h1, h2, h3⟩ := ih (by omega)
      obtain ⟨b, hb⟩ := hD t (by omega)
      have hbe : F.entry t t = b := Row.val_of_mem (hS t (by omega)) hb
      refine ⟨upd y t (b • y t), ?_, fun k hk => by rw [upd_ne _ _ (by omega)]; exact h2 k (by omega), fun i hi => ?_⟩
      · rw [forRangeM_succ, h1, Res.ok_bind]
        by_cases hlow : isLower = true
        · rw [if_pos hlow]
          have hlast : (F.row t).getLast? = some (t, b) := by
            rw [row_split (hS t (by omega)) hb]
            have : (F.row t).filter (fun e => decide (t < e.1)) = [] := by
              rw [List.filter_eq_nil_iff]
              intro e he
              have := hl hlow t (by omega) e he
              simp; omega
            rw [this]
            simp
          simp only [hlast]
        · rw [if_neg hlow]
          obtain ⟨q, e1, e2⟩ := find_diag _ (hS t (by omega)) hb
          rw [e1, Res.ok_bind]
          simp only [e2, Res.ok_bind]
      · by_cases hit : i = t
        · subst hit; rw [upd_same, hbe, h2 i (le_refl _)]
        · rw [upd_ne _ _ hit]; exact h3 i (by omega)
  exact key F.n (le_refl _)

theorem solveLT_spec {tr : R → R} (h0 : tr 0 = 0) (F : SpMat R) (hS : F.Sorted) (hD : F.HasDiag) (v : Nat → V) :
    ∃ y, solveLT tr F v = .ok y ∧ (∀ k, F.n ≤ k → y k = v k) ∧
      ∀ k, y k + ∑ j ∈ Finset.range F.n, (if k < j then tr (F.entry j k) • y j else 0) = v k := by
  have hbody : ∀ i, i < F.n → ∀ s : Nat → V, solveLTStep tr F i s =
      .ok (fun k => if k < i then s k - tr (F.entry i k) • s i else s k) := by
    intro i hi s
    obtain ⟨b, hb⟩ := hD i hi
    simp only [solveLStep, solveLTStep, dropWhile_diag (hS i hi) hb, takeWhile_lt (hS i hi)]
    congr 1
    have hfix : ∀ (l : List (Nat × R)) (s : Nat → V), (∀ e ∈ l, e.1 < i) →
        l.foldl (fun v e => upd v e.1 (v e.1 - tr e.2 • v i)) s =
          l.foldl (fun v e => upd v e.1 (v e.1 + -(tr e.2 • s i))) s := by
      intro l
      induction l with
      | nil => intro s _; rfl
      | cons e l ih =>
        intro s hl
        have he := hl e (by simp)
        rw [List.foldl_cons, List.foldl_cons, ih _ fun e he => hl e (by simp [he]), upd_ne _ _ (show i ≠ e.1 by omega),
          sub_eq_add_neg]
    rw [hfix _ s (by intro e he; simpa using (List.mem_filter.mp he).2)]
    funext k
    rw [foldl_scatter (fun e : Nat × R => -(tr e.2 • s i)) (fun e => e.1)]
    have hasc : Row.Asc ((F.row i).filter fun e => decide (e.1 < i)) :=
      List.Pairwise.sublist (List.Sublist.map _ List.filter_sublist) (hS i hi)
    have hls := list_sum_ite_key ((F.row i).filter fun e => decide (e.1 < i)) hasc k (fun b => -(tr b • s i)) (by simp [h0])
    rw [hls]
    by_cases hk : k < i
    · rw [if_pos hk, sub_eq_add_neg]
      congr 4
      unfold SpMat.entry Row.val
      rw [List.find?_filter]
      congr 1
      apply List.find?_congr
      intro e he
      by_cases hek : e.1 = k
      · simp [hek, hk]
      · simp [hek]
    · rw [if_neg hk]
      have : Row.val ((F.row i).filter fun e => decide (e.1 < i)) k = 0 := by
        apply Row.val_of_not_mem
        intro b hb
        have := (List.mem_filter.mp hb).2
        simp at this; omega
      rw [this, h0]; simp
  have key : ∀ m, m ≤ F.n → ∀ s : Nat → V, ∃ y, forDownM m (solveLTStep tr F) s = .ok y ∧
      (∀ k, m ≤ k → y k = s k) ∧
      ∀ k, y k + ∑ j ∈ Finset.range m, (if k < j then tr (F.entry j k) • y j else 0) = s k := by
    intro m
    induction m with
    | zero => intro _ s; exact ⟨s, rfl, fun _ _ => rfl, fun k => by simp⟩
    | succ m ih =>
      intro hm s
      obtain ⟨y, h1, h2, h3⟩ := ih (by omega) (fun k => if k < m then s k - tr (F.entry m k) • s m else s k)
      refine ⟨y, ?_, fun k hk => ?_, fun k => ?_⟩
      · rw [forDownM_succ, hbody m (by omega) s, Res.ok_bind, h1]
      · rw [h2 k (by omega), if_neg (by omega)]
      · have hym : y m = s m := by rw [h2 m (le_refl _), if_neg (by omega)]
        rw [Finset.sum_range_succ, ← add_assoc, h3 k, hym]
        by_cases hk : k < m
        · rw [if_pos hk, if_pos hk, sub_add_cancel]
        · rw [if_neg hk, if_neg hk, add_zero]
  exact key F.n (le_refl _) v

/-- `bildl_backsolve` returns the `v` with `L D L^T v = d`, in both modes of finding the diagonal entry. -/
theorem C22_backsolve {tr : R → R} (ht : IsTranspose tr) (F : SpMat R) (D : Nat → R) (hF : F.WF) (hsq : F.m = F.n)
    (hD : F.HasDiag) (hp : ∀ i, i < F.n → D i * F.entry i i = 1 ∧ F.entry i i * D i = 1) (isLower : Bool)
    (hl : isLower = true → ∀ i, i < F.n → ∀ e ∈ F.row i, e.1 ≤ i) (v d : Nat → V) :
    ∃ v', Ildl.backsolve tr F isLower v d = .ok v' ∧ (∀ k, F.n ≤ k → v' k = v k) ∧ ∀ i, i < F.n →
      ∑ k ∈ Finset.range F.n, lowerFactor F i k • D k • (∑ j ∈ Finset.range F.n, tr (lowerFactor F j k) • v' j) = d i := by
  have h0 := IsTranspose.zero ht
  have hS : F.Sorted := fun i hi => (hF i hi).1
  have hc : ∀ i, i < F.n → ∀ e ∈ F.row i, e.1 < F.n := fun i hi e he => hsq ▸ (hF i hi).2 e he
  obtain ⟨y, y1, y2, y3⟩ := solveL_spec F hS hD v d
  obtain ⟨z, z1, z2, z3⟩ := solveD_spec F hS hD isLower hl y
  obtain ⟨w, w1, w2, w3⟩ := solveLT_spec h0 F hS hD z
  refine ⟨w, by unfold Ildl.backsolve; rw [y1, Res.ok_bind, z1, Res.ok_bind, w1],
    fun k hk => by rw [w2 k hk, z2 k hk, y2 k hk], fun i hi => ?_⟩
  have hLT : ∀ k, k < F.n → ∑ j ∈ Finset.range F.n, tr (lowerFactor F j k) • w j = z k := by
    intro k hk
    rw [← w3 k]
    have : ∀ j ∈ Finset.range F.n, tr (lowerFactor F j k) • w j =
        (if k < j then tr (F.entry j k) • w j else 0) + if j = k then w k else 0 := by
      intro j _
      unfold lowerFactor
      rcases Nat.lt_trichotomy k j with h | h | h
      · simp [h, show j ≠ k by omega]
      · subst h; simp [ht.one]
      · simp [show ¬ k < j by omega, show k ≠ j by omega, show j ≠ k by omega, h0]
    rw [Finset.sum_congr rfl this, Finset.sum_add_distrib, Finset.sum_ite_eq' (Finset.range F.n) k (fun _ => w k)]
    simp only [Finset.mem_range, hk, if_true]
    rw [add_comm]
  have h4 : ∀ k ∈ Finset.range F.n, lowerFactor F i k • D k • (∑ j ∈ Finset.range F.n, tr (lowerFactor F j k) • w j) =
      (if k < i then F.entry i k • y k else 0) + if k = i then y i else 0 := by
    intro k hk
    rw [Finset.mem_range] at hk
    rw [hLT k hk, z3 k hk, smul_smul (D k), (hp k hk).1, one_smul]
    unfold lowerFactor
    rcases Nat.lt_trichotomy k i with h | h | h
    · simp [h, show k ≠ i by omega]
    · subst h; simp
    · simp [show ¬ k < i by omega, show k ≠ i by omega]
  rw [Finset.sum_congr rfl h4, Finset.sum_add_distrib, Finset.sum_ite_eq' (Finset.range F.n) i (fun _ => y i),
    ← partSum_eq_sum F F.n i (hS i hi) (hc i hi)]
  simp only [Finset.mem_range, hi, if_true]
  rw [add_comm]
  exact y3 i hi

/-- What `SeqILDL` keeps of a matrix: the lower triangle with diagonal; a missing diagonal entry is an `ISTLError`. -/
theorem C22_lower_triangle (A : SpMat R) (hA : A.WF) :
    (A.HasDiag → ∃ B, lowerTriangle A = .ok B ∧ B.n = A.n ∧ B.m = A.m ∧ B.WF ∧ B.HasDiag ∧
      (∀ i, i < B.n → ∀ e ∈ B.row i, e.1 ≤ i) ∧ ∀ i j, j ≤ i → (B.Has i j ↔ A.Has i j) ∧ B.entry i j = A.entry i j) ∧
    (¬ A.HasDiag → lowerTriangle A = .throw .istlError) := by
  have hd := forRangeM_dich (diagCheck A) (fun i => (A.row i).Has i) .istlError A.n
    (by
      rintro i hi ⟨b, hb⟩ s
      obtain ⟨q, h1, -⟩ := find_diag _ (hA i hi).1 hb
      exact ⟨(), by unfold diagCheck; rw [h1, Res.ok_bind]⟩)
    (by
      intro i hi hn s
      unfold diagCheck
      rw [((C01_find_exact (A.row i) (hA i hi).1 i).2.1).mpr hn, Res.ok_bind]) ()
  constructor
  · intro hD
    obtain ⟨s, hs⟩ := hd.1 hD
    refine ⟨{ n := A.n, m := A.m, row := fun i => (A.row i).filter fun e => decide (e.1 ≤ i) },
      by unfold lowerTriangle; rw [hs, Res.ok_bind], rfl, rfl, fun i hi => ⟨?_, ?_⟩, fun i hi => ?_, ?_, fun i j hji => ⟨?_, ?_⟩⟩
    · exact List.Pairwise.sublist (List.Sublist.map _ List.filter_sublist) (hA i hi).1
    · intro e he; exact (hA i hi).2 e (List.mem_filter.mp he).1
    · obtain ⟨b, hb⟩ := hD i hi
      exact ⟨b, List.mem_filter.mpr ⟨hb, by simp⟩⟩
    · intro i hi e he; simpa using (List.mem_filter.mp he).2
    · constructor
      · rintro ⟨hi, b, hb⟩; exact ⟨hi, b, (List.mem_filter.mp hb).1⟩
      · rintro ⟨hi, b, hb⟩; exact ⟨hi, b, List.mem_filter.mpr ⟨hb, by simpa using hji⟩⟩
    · unfold SpMat.entry Row.val
      rw [List.find?_filter]
      congr 1
      apply List.find?_congr
      intro e he
      by_cases hek : e.1 = j
      · simp [hek, hji]
      · simp [hek]
  · intro hn
    unfold lowerTriangle
    rw [hd.2 hn, Res.throw_bind]

/-- A symmetric 3x3 case over the rationals (transposition is the identity): the factorisation exists and has fill dropped. -/
example : IsTranspose (fun x : ℚ => x) ∧ (match decompose numInv (fun x => x) { n := 3, m := 3, row := fun i => if i = 0 then [(0, 2)] else
      if i = 1 then [(0, 1), (1, 3)] else [(0, 1), (1, 1), (2, 5)] } with
    | .ok F => [F.row 0, F.row 1, F.row 2]
    | _ => []) = [[(0, 1 / 2)], [(0, 1 / 2), (1, 2 / 5)], [(0, 1 / 2), (1, 1 / 5), (2, 5 / 22)]] := by
  refine ⟨⟨rfl, fun _ _ => rfl, fun a b => mul_comm a b, fun _ => rfl⟩, ?_⟩
  decide +kernel

end Istl
