import Verif.Props.C17

/-!
# C20: the resorted CRS back substitution equals the one on the decomposed matrix
-/

namespace Istl
open Ilu Gsetc
variable {R V : Type} [Ring R] [AddCommGroup V] [Module R V]

theorem forRangeM_congr {S : Type} {n : Nat} {f g : Nat → S → Res S} (h : ∀ i, i < n → ∀ s, f i s = g i s) (s : S) :
    forRangeM n f s = forRangeM n g s := by
  induction n with
  | zero => rfl
  | succ n ih =>
    rw [forRangeM_succ, forRangeM_succ, ih fun i hi s => h i (by omega) s]
    cases forRangeM n g s with
    | ok a => exact h n (by omega) a
    | throw e => rfl
    | ub => rfl

theorem forDownM_eq_forRangeM {S : Type} (n : Nat) (f : Nat → S → Res S) (s : S) :
    forDownM n f s = forRangeM n (fun i => f (n - 1 - i)) s := by
  unfold forDownM forRangeM
  rw [List.range_eq_range', List.reverse_range', ← List.range_eq_range', List.foldlM_map]
  simp

/-- where row `k` starts when the rows have the entry lists `es` -/
def crsOff (es : Nat → List (Nat × R)) (k : Nat) : Nat := ((List.range k).flatMap es).length

/-- `c` stores the entry lists `es 0, ..., es (t-1)` one after the other -/
structure CrsRep (c : CRS R) (n t : Nat) (es : Nat → List (Nat × R)) : Prop where
  len : c.rows.length = n + 1
  starts : ∀ k, k ≤ t → c.rows[k]? = some (crsOff es k)
  values : c.values = ((List.range t).flatMap es).map Prod.snd
  cols : c.cols = ((List.range t).flatMap es).map Prod.fst
  nRows : c.nRows = n

theorem crsOff_succ (es : Nat → List (Nat × R)) (k : Nat) : crsOff es (k + 1) = crsOff es k + (es k).length := by
  simp [crsOff, List.range_succ]

theorem crsFold (v : Nat → V) (L : List (Nat × R)) : ∀ (pre mid post : List (Nat × R)) (rhs : V), L = pre ++ mid ++ post →
    (List.range' pre.length mid.length).foldlM (fun rhs col => do
      let a ← rd (L.map Prod.snd) col
      let j ← rd (L.map Prod.fst) col
      Res.ok (rhs - a • v j)) rhs = .ok (residual (Ilu.act (R := R) (V := V)) mid v rhs) := by
  intro pre mid
  induction mid generalizing pre with
  | nil => intro post rhs _; rfl
  | cons e mid ih =>
    intro post rhs hL
    have h1 : rd (L.map Prod.snd) pre.length = .ok e.2 := by
      subst hL; simp [rd]
    have h2 : rd (L.map Prod.fst) pre.length = .ok e.1 := by
      subst hL; simp [rd]
    rw [List.length_cons, List.range'_succ, List.foldlM_cons, h1, Res.ok_bind, h2, Res.ok_bind, Res.ok_bind]
    have := ih (pre ++ [e]) post (rhs - e.2 • v e.1) (by simp [hL])
    rw [List.length_append, List.length_singleton] at this
    exact this

theorem CrsRep.residual {c : CRS R} {n t : Nat} {es : Nat → List (Nat × R)} (h : CrsRep c n t es) {i : Nat} (hi : i < t)
    (v : Nat → V) (rhs : V) : crsResidual c i v rhs = .ok (residual (Ilu.act (R := R) (V := V)) (es i) v rhs) := by
  unfold crsResidual
  have h1 : rd c.rows i = .ok (crsOff es i) := by rw [rd, h.starts i (by omega)]
  have h2 : rd c.rows (i + 1) = .ok (crsOff es (i + 1)) := by rw [rd, h.starts (i + 1) (by omega)]
  rw [h1, Res.ok_bind, h2, Res.ok_bind, crsOff_succ, Nat.add_sub_cancel_left, h.values, h.cols]
  obtain ⟨post, hp⟩ : ∃ post, (List.range t).flatMap es = (List.range i).flatMap es ++ es i ++ post := by
    refine ⟨(List.range' (i + 1) (t - (i + 1))).flatMap es, ?_⟩
    have : List.range t = List.range (i + 1) ++ List.range' (i + 1) (t - (i + 1)) := by
      rw [List.range_eq_range', List.range_eq_range']
      have h := List.range'_append_1 (s := 0) (m := i + 1) (n := t - (i + 1))
      rw [Nat.zero_add] at h
      rw [h]; congr 1; omega
    rw [this, List.flatMap_append, List.range_succ, List.flatMap_append, List.flatMap_singleton]
  exact crsFold v _ _ _ _ rhs hp

/-- appending a row -/
theorem CrsRep.step {c : CRS R} {n t : Nat} {es : Nat → List (Nat × R)} (h : CrsRep c n t es) (ht : t < n) :
    ∃ c', (c.push (es t)).setRow (t + 1) (crsOff es t + (es t).length) = .ok c' ∧ CrsRep c' n (t + 1) es := by
  refine ⟨⟨c.rows.set (t + 1) (crsOff es t + (es t).length), c.values ++ (es t).map Prod.snd, c.cols ++ (es t).map Prod.fst,
    c.nRows⟩, ?_, ?_, ?_, ?_, ?_, h.nRows⟩
  · unfold CRS.setRow CRS.push wr
    rw [if_pos (by show t + 1 < c.rows.length; rw [h.len]; omega)]; rfl
  · simp [h.len]
  · intro k hk
    rw [List.getElem?_set]
    split
    · rename_i hkk; subst hkk
      rw [if_pos (by rw [h.len]; omega), crsOff_succ]
    · exact h.starts k (by omega)
  · simp [List.range_succ, h.values]
  · simp [List.range_succ, h.cols]

theorem crsRep_zero {n : Nat} (hn : 0 < n) (es : Nat → List (Nat × R)) :
    ∃ c, (CRS.sized n : CRS R).setRow 0 0 = .ok c ∧ CrsRep c n 0 es := by
  refine ⟨⟨(List.replicate (n + 1) sizeMax).set 0 0, [], [], n⟩, ?_, ?_, ?_, ?_, ?_, rfl⟩
  · unfold CRS.setRow CRS.sized wr
    rw [if_neg (show ¬ n = 0 by omega)]
    rw [if_pos (by simp)]; rfl
  · simp
  · intro k hk
    obtain rfl : k = 0 := by omega
    simp [crsOff]
  · simp
  · simp

theorem crsLower_rep (F : SpMat R) (hn : 0 < F.n) (hS : F.Sorted) (hD : F.HasDiag) :
    ∃ c k, crsLower F = .ok (c, k) ∧ CrsRep c F.n F.n (fun i => (F.row i).takeWhile fun e => e.1 < i) := by
  set es : Nat → List (Nat × R) := fun i => (F.row i).takeWhile fun e => e.1 < i with hes
  obtain ⟨c0, h0, r0⟩ := crsRep_zero hn es
  unfold crsLower
  rw [h0, Res.ok_bind]
  have key : ∀ t, t ≤ F.n → ∃ c, forRangeM t (fun i s =>
    match (F.row i).dropWhile fun e => e.1 < i with
    | [] => Res.ub
    | _ => do
      let es := (F.row i).takeWhile fun e => e.1 < i
      let c ← (s.1.push es).setRow (i + 1) (s.2 + es.length)
      .ok (c, s.2 + es.length)) (c0, 0) = .ok (c, crsOff es t) ∧ CrsRep c F.n t es := by
    intro t
    induction t with
    | zero => intro _; exact ⟨c0, rfl, r0⟩
    | succ t ih =>
      intro ht
      obtain ⟨c, h1, h2⟩ := ih (by omega)
      obtain ⟨c', h3, h4⟩ := h2.step (by omega)
      refine ⟨c', ?_, h4⟩
      rw [forRangeM_succ, h1, Res.ok_bind]
      obtain ⟨a, ha⟩ := hD t (by omega)
      rw [dropWhile_diag (hS t (by omega)) ha]
      show ((c.push (es t)).setRow (t + 1) (crsOff es t + (es t).length) >>= fun c' =>
        Res.ok (c', crsOff es t + (es t).length)) = _
      rw [h3, Res.ok_bind, crsOff_succ]
  obtain ⟨c, h1, h2⟩ := key F.n (le_refl _)
  exact ⟨c, _, h1, h2⟩

theorem crsUpperRow_eq (i : Nat) (a : R) (L : List (Nat × R)) : ∀ U : List (Nat × R), (∀ e ∈ U, i < e.1) →
    crsUpperRow i (U ++ (i, a) :: L) = (U, some a) := by
  intro U
  induction U with
  | nil => intro _; simp [crsUpperRow]
  | cons e U ih =>
    intro h
    have he := h e (by simp)
    obtain ⟨j, b⟩ := e
    rw [List.cons_append, crsUpperRow, if_neg (by simp only at he; omega), ih fun e he => h e (by simp [he]),
      if_pos (by simp only at he; omega)]

theorem crsUpper_rep (F : SpMat R) (hn : 0 < F.n) (hS : F.Sorted) (hD : F.HasDiag) :
    ∃ c inv k, crsUpper F = .ok (c, inv, k) ∧
      CrsRep c F.n F.n (fun r => (F.row (F.n - 1 - r)).reverse.takeWhile fun e => F.n - 1 - r < e.1) ∧
      ∀ r, r < F.n → ∃ a, inv[r]? = some a ∧ (F.row (F.n - 1 - r)).Stores (F.n - 1 - r) a := by
  set es : Nat → List (Nat × R) := fun r => (F.row (F.n - 1 - r)).reverse.takeWhile fun e => F.n - 1 - r < e.1 with hes
  obtain ⟨c0, h0, r0⟩ := crsRep_zero hn es
  unfold crsUpper
  rw [h0, Res.ok_bind]
  have key : ∀ t, t ≤ F.n → ∃ c inv, forRangeM t (fun row s => do
    let i := F.n - 1 - row
    let u := crsUpperRow i (F.row i).reverse
    let inv ← match u.2 with
      | some a => wr s.2.1 row a
      | none => .ok s.2.1
    let c ← (s.1.push u.1).setRow (row + 1) (s.2.2 + u.1.length)
    .ok (c, inv, s.2.2 + u.1.length)) (c0, List.replicate F.n 0, 0) = .ok (c, inv, crsOff es t) ∧ CrsRep c F.n t es ∧
      inv.length = F.n ∧
      ∀ r, r < t → ∃ a, inv[r]? = some a ∧ (F.row (F.n - 1 - r)).Stores (F.n - 1 - r) a := by
    intro t
    induction t with
    | zero => intro _; exact ⟨c0, List.replicate F.n 0, rfl, r0, by simp, fun r hr => by omega⟩
    | succ t ih =>
      intro ht
      obtain ⟨c, inv, h1, h2, h2', h2''⟩ := ih (by omega)
      obtain ⟨c', h3, h4⟩ := h2.step (by omega)
      obtain ⟨a, ha⟩ := hD (F.n - 1 - t) (by omega)
      have hrow : crsUpperRow (F.n - 1 - t) (F.row (F.n - 1 - t)).reverse = (es t, some a) := by
        obtain ⟨g1, g2⟩ := reverse_take (hS (F.n - 1 - t) (by omega)) ha
        have hs : (F.row (F.n - 1 - t)).reverse = es t ++ (F.n - 1 - t, a) ::
            ((F.row (F.n - 1 - t)).filter fun e => decide (e.1 < F.n - 1 - t)).reverse := by
          rw [← g2, hes]; exact List.takeWhile_append_dropWhile.symm
        rw [hs, crsUpperRow_eq]
        intro e he
        rw [hes] at he
        simp only [g1, List.mem_reverse, List.mem_filter, decide_eq_true_eq] at he
        exact he.2
      refine ⟨c', inv.set t a, ?_, h4, by simp [h2'], ?_⟩
      · rw [forRangeM_succ, h1, Res.ok_bind]
        simp only [hrow]
        rw [wr, if_pos (by omega), Res.ok_bind, h3, Res.ok_bind, crsOff_succ]
      · intro r hr
        rw [List.getElem?_set]
        split
        · rename_i hrt; subst hrt
          rw [if_pos (by omega)]; exact ⟨a, rfl, ha⟩
        · exact h2'' r (by omega)
  obtain ⟨c, inv, h1, h2, -, h3⟩ := key F.n (le_refl _)
  exact ⟨c, inv, _, h1, h2, h3⟩

/-- For every decomposed matrix with at least one row (columns of every row ascending, all diagonal entries stored), `convertToCRS`
succeeds and the CRS back substitution has the same outcome as the one on the matrix, for every right hand side and every old content
of `v`. -/
theorem C20_crs_backsolve_eq (F : SpMat R) (hn : 0 < F.n) (hS : F.Sorted) (hD : F.HasDiag) :
    ∃ lower upper inv, convertToCRS F = .ok (lower, upper, inv) ∧
      ∀ v d : Nat → V, crsBacksolve lower upper inv v d = backsolve F v d := by
  obtain ⟨l, kl, hl, rl⟩ := crsLower_rep F hn hS hD
  obtain ⟨u, inv, ku, hu, ru, ri⟩ := crsUpper_rep F hn hS hD
  refine ⟨l, u, inv, by unfold convertToCRS; rw [hl, Res.ok_bind, hu, Res.ok_bind], fun v d => ?_⟩
  unfold crsBacksolve backsolve
  rw [if_neg (by rw [rl.nRows, ru.nRows]; simp), rl.nRows]
  have e1 : forRangeM F.n (fun i v => do
      let rhs ← crsResidual l i v (d i)
      Res.ok (upd v i rhs)) v = bltsolve Ilu.act copyLoc F d v := by
    unfold bltsolve
    refine forRangeM_congr (fun i hi s => ?_) v
    rw [rl.residual hi, Res.ok_bind]
    obtain ⟨a, ha⟩ := hD i hi
    rw [dropWhile_diag (hS i hi) ha]
    rfl
  rw [e1]
  cases bltsolve (Ilu.act (R := R) (V := V)) copyLoc F d v with
  | throw e => rfl
  | ub => rfl
  | ok y =>
    rw [Res.ok_bind, Res.ok_bind]
    unfold upperSolve
    rw [forDownM_eq_forRangeM]
    refine forRangeM_congr (fun i hi s => ?_) y
    dsimp only
    rw [ru.residual hi, Res.ok_bind]
    obtain ⟨a, h1, ha⟩ := ri i hi
    have h1' : rd inv i = .ok a := by rw [rd, h1]
    rw [h1', Res.ok_bind, (reverse_take (hS (F.n - 1 - i) (by omega)) ha).2]

/-- Together with the factorisation: what SeqILU does with `resort = true` gives the same vector as without. -/
theorem C20_resorted_ilu0 (I : BlockInv R) (A F : SpMat R) (hA : A.WF) (hn : 0 < A.n) (h : ilu0 I A = .ok F) (v d : Nat → V) :
    (convertToCRS F >>= fun c => crsBacksolve c.1 c.2.1 c.2.2 v d) = backsolve F v d := by
  have hfin := ilu0_finished I A F hA h
  obtain ⟨e1, -, -⟩ := ilu0_rows I A F h
  obtain ⟨l, u, inv, h1, h2⟩ := C20_crs_backsolve_eq (V := V) F (by omega)
    (fun i hi => (hfin i (by omega)).2.1)
    (fun i hi => by obtain ⟨-, -, p, f, h3, -⟩ := hfin i (by omega); exact ⟨f, h3⟩)
  rw [h1, Res.ok_bind]
  exact h2 v d

/-- A 3x3 case: both substitutions, run on the factors, give the same (non-zero) vector. -/
example : (match ilu0 numInv demo33 with
    | .ok F => (match convertToCRS F with
      | .ok c => (match crsBacksolve c.1 c.2.1 c.2.2 (fun _ => (0 : ℚ)) (fun i => (i : ℚ) + 1), backsolve F (fun _ => (0 : ℚ))
            (fun i => (i : ℚ) + 1) with
        | .ok x, .ok y => [x 0 == y 0, x 1 == y 1, x 2 == y 2, x 2 == 0]
        | _, _ => [])
      | _ => [])
    | _ => []) = [true, true, true, false] := by
  decide +kernel

/-- With no rows at all the conversion writes `rows_[0]` of an array that was never allocated. -/
theorem C20_empty_counterexample : convertToCRS (R := Int) { n := 0, m := 0, row := fun _ => [] } = .ub := rfl

end Istl
