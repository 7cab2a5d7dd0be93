import Verif.Lemmas.OvlSchwarz
import Verif.Lemmas.OvlLocal
import Verif.Props.C17
import Verif.Props.C21
import Verif.Props.C23

/-! # Exact subdomain solvers -/

namespace Istl
namespace Ovl

variable {R V : Type}

theorem idxOf_findLocal {D : List Nat} (hD : D.Pairwise (· < ·)) {g k : Nat} (h : findLocal D g = some k) : D.idxOf g = k := by
  rw [findLocal_some hD] at h
  obtain ⟨h1, rfl⟩ := List.getElem?_eq_some_iff.1 h
  exact List.Nodup.idxOf_getElem (hD.imp (fun h => Nat.ne_of_lt h)) k h1

theorem spread_sum [AddCommGroup V] (act : R → V →+ V) {D : List Nat} (hD : D.Pairwise (· < ·)) (l : Nat → V) : ∀ r : Row R,
    (r.map fun e => act e.2 (spread D l e.1)).sum = ((localRow' D r).map fun e => act e.2 (l e.1)).sum
  | [] => rfl
  | e :: r => by
    have ih := spread_sum act hD l r
    unfold localRow' at ih ⊢
    cases h : findLocal D e.1 with
    | none =>
      have hn := findLocal_none.1 h
      simp only [List.map_cons, List.sum_cons, ih, List.filterMap_cons, h, Option.map_none]
      simp [spread, hn]
    | some k =>
      have hm : e.1 ∈ D := by
        by_contra hc
        rw [findLocal_none.2 hc] at h; cases h
      simp only [List.map_cons, List.sum_cons, ih, List.filterMap_cons, h, Option.map_some]
      simp [spread, hm, idxOf_findLocal hD h]

theorem apply_spread [AddCommGroup V] (act : R → V →+ V) (A : SpMat R) {D : List Nat} (hD : D.Pairwise (· < ·)) (l : Nat → V) {i : Nat}
    (hi : i < D.length) : A.apply act (spread D l) D[i] = (localMat A D).apply act l i := by
  unfold SpMat.apply SpMat.partSum
  rw [localMat_row A D hi]
  simp only [decide_true, List.filter_true]
  exact spread_sum act hD l _

theorem solvesOn_spread [AddCommGroup V] (act : R → V →+ V) (A : SpMat R) {D : List Nat} (hD : D.Pairwise (· < ·)) {l rhs r : Nat → V}
    (hr : ∀ k (h : k < D.length), rhs k = r D[k]) (h : ∀ i < D.length, (localMat A D).apply act l i = rhs i) :
    SolvesOn act A D r (spread D l) := by
  refine ⟨fun g hg => by simp [spread, hg], fun g hg => ?_⟩
  obtain ⟨i, hi, rfl⟩ := List.mem_iff_getElem.1 hg
  rw [apply_spread act A hD l hi, h i hi, hr i hi]

/-! ### The dense solver -/

theorem sum_range_list [AddCommMonoid V] (n : Nat) (f : Nat → V) : ∑ k ∈ Finset.range n, f k = ((List.range n).map f).sum := by
  show (Multiset.map f (Multiset.range n)).sum = _
  rw [Multiset.range, Multiset.map_coe, Multiset.sum_coe]

theorem denseLocal_eq [Zero R] {A : SpMat R} {D : List Nat} (hg : ∀ g ∈ D, g < A.n ∧ (A.row g).Asc) :
    denseLocal A D = .ok (D.map fun g => D.map fun c => A.entry g c) := by
  unfold denseLocal
  refine mapM_ok _ (fun g => D.map fun c => A.entry g c) D fun g h => ?_
  rw [rowOf, if_pos (hg g h).1, Res.ok_bind]
  refine mapM_ok _ (fun c => A.entry g c) D fun c _ => ?_
  have hs := (hg g h).2
  by_cases hc : (A.row g).Has c
  · obtain ⟨b, hb⟩ := hc
    obtain ⟨q, h1, -⟩ := find_diag (A.row g) hs hb
    rw [h1, Res.ok_bind]
    simp only
    rw [Row.get_of_mem _ hs hb]
    simp [SpMat.entry, Row.val_of_mem hs hb]
  · rw [((C01_find_exact (A.row g) hs c).2.1).2 hc, Res.ok_bind]
    simp only
    rw [SpMat.entry, Row.val_of_not_mem (fun b hb => hc ⟨b, hb⟩)]

theorem dense_answers [Zero R] [AddCommGroup V] (act : R → V →+ V) (h0 : act 0 = 0) (A : SpMat R) (hA : A.WF) (ds : DenseSolve act) :
    Answers (denseSolver ds.solve) A (SolvesOn act A) := by
  intro D S hD hn hS lhs rhs r l hr hl
  have hg : ∀ g ∈ D, g < A.n ∧ (A.row g).Asc := fun g h => ⟨hn g h, (hA g (hn g h)).1⟩
  unfold denseSolver at hS
  rw [denseLocal_eq hg, Res.ok_bind] at hS
  injection hS with hS
  subst hS
  refine solvesOn_spread act A hD hr fun i hi => ?_
  have hs := ds.sound _ rhs l hl i (by simpa using hi)
  rw [← hs]
  have hwf := localMat_wf hD (fun g h => (hg g h).2) i hi
  have h2 := Row.sum_val ((localMat A D).row i) hwf.1 D.length hwf.2 (fun k a => act a (l k)) (by intro k; simp [h0])
  unfold SpMat.apply SpMat.partSum
  simp only [decide_true, List.filter_true]
  rw [← h2]
  simp only [List.length_map, List.getElem_map]
  rw [sum_range_list]
  refine congrArg List.sum (List.map_congr_left fun k hk => ?_)
  have hk := List.mem_range.1 hk
  simp only [List.getElem?_map, List.getElem?_eq_getElem hk, Option.map_some]
  have := localMat_entry (A := A) hD hi hk (hg _ (List.getElem_mem hi)).2
  rw [← this]; rfl

/-! ### Incomplete factorisations that are complete -/

section Ilu
variable [Ring R] [AddCommGroup V] [Module R V]

/-- the factors of a matrix whose pattern contains the products of its factors solve the system exactly -/
theorem factors_solve (L F : SpMat R) (piv : Nat → R) (hL : L.WF) (hsq : L.m = L.n)
    (hprod : ∀ i j, i < L.n → j < L.n → ∑ k ∈ Finset.range L.n, lowerFactor F i k * upperFactor F piv k j = L.entry i j) (v d : Nat → V)
    (h : ∀ i, i < L.n → ∑ k ∈ Finset.range L.n, lowerFactor F i k • (∑ j ∈ Finset.range L.n, upperFactor F piv k j • v j) = d i) :
    ∀ i, i < L.n → L.apply Ilu.act v i = d i := by
  intro i hi
  rw [← h i hi]
  unfold SpMat.apply
  rw [partSum_eq_sum L L.n i (hL i hi).1 (by intro e he; rw [← hsq]; exact (hL i hi).2 e he) (fun _ => True) v]
  simp only [if_true]
  have : ∀ k ∈ Finset.range L.n, lowerFactor F i k • (∑ j ∈ Finset.range L.n, upperFactor F piv k j • v j) =
      ∑ j ∈ Finset.range L.n, (lowerFactor F i k * upperFactor F piv k j) • v j := by
    intro k _
    rw [Finset.smul_sum]
    exact Finset.sum_congr rfl fun j _ => (mul_smul _ _ _).symm
  rw [Finset.sum_congr rfl this, Finset.sum_comm]
  refine Finset.sum_congr rfl fun j hj => ?_
  rw [← Finset.sum_smul, hprod i j hi (Finset.mem_range.1 hj)]

theorem entry_of_not_has {A : SpMat R} {i j : Nat} (hi : i < A.n) (h : ¬ A.Has i j) : A.entry i j = 0 :=
  Row.val_of_not_mem fun b hb => h ⟨hi, b, hb⟩

theorem has_of_map {A F : SpMat R} {i j : Nat} (hi : i < A.n) (h : (F.row i).map Prod.fst = (A.row i).map Prod.fst) (hF : (F.row i).Has j) : A.Has i j := by
  obtain ⟨b, hb⟩ := hF
  have : j ∈ (A.row i).map Prod.fst := h ▸ List.mem_map_of_mem (f := Prod.fst) hb
  obtain ⟨⟨j', b'⟩, hm, rfl⟩ := List.mem_map.1 this
  exact ⟨hi, b', hm⟩

/-- outside a pattern closed under elimination the product of the factors vanishes -/
theorem product_outside {L F : SpMat R} {piv : Nat → R} (hn : F.n = L.n) (hhas : ∀ i j, i < L.n → F.Has i j → L.Has i j) (hdiag : ∀ i, i < L.n → L.Has i i)
    (hc : ∀ i j k, k < i → k < j → L.Has i k → L.Has k j → L.Has i j) {i j : Nat} (hi : i < L.n) (hj : ¬ L.Has i j) :
    ∑ k ∈ Finset.range L.n, lowerFactor F i k * upperFactor F piv k j = 0 := by
  refine Finset.sum_eq_zero fun k hk => ?_
  have hk := Finset.mem_range.1 hk
  have ez : ∀ p q, p < L.n → ¬ L.Has p q → F.entry p q = 0 := fun p q hp h =>
    entry_of_not_has (by omega) (fun h' => h (hhas p q hp h'))
  unfold lowerFactor upperFactor
  split
  · rename_i hki
    split
    · rename_i hkj
      by_cases h1 : L.Has i k
      · by_cases h2 : L.Has k j
        · exact absurd (hc i j k hki hkj h1 h2) hj
        · rw [ez k j hk h2, mul_zero]
      · rw [ez i k hi h1, zero_mul]
    · split
      · rename_i hkj
        subst hkj
        rw [ez i k hi hj, zero_mul]
      · rw [mul_zero]
  · split
    · rename_i hki
      subst hki
      split
      · rw [ez k j hi hj, mul_zero]
      · split
        · rename_i hkj
          subst hkj
          exact absurd (hdiag k hi) hj
        · rw [mul_zero]
    · rw [zero_mul]

theorem noFill_local {A : SpMat R} {D : List Nat} (hD : D.Pairwise (· < ·)) (hn : ∀ g ∈ D, g < A.n) (h : NoFill A D) :
    ∀ i j k, k < i → k < j → (localMat A D).Has i k → (localMat A D).Has k j → (localMat A D).Has i j := by
  intro i j k hki hkj h1 h2
  have hi : i < D.length := h1.1
  have hk : k < D.length := h2.1
  have hj : j < D.length := by
    obtain ⟨_, b, hb⟩ := h2
    rw [localMat_row A D hk] at hb
    exact ((localRow'_mem hD).1 hb).choose
  rw [localMat_has hD hi hk] at h1
  rw [localMat_has hD hk hj] at h2
  rw [localMat_has hD hi hj]
  have lt := fun a b (ha : a < D.length) (hb : b < D.length) (h : a < b) => List.pairwise_iff_getElem.1 hD a b ha hb h
  exact (h D[i] (List.getElem_mem hi) D[j] (List.getElem_mem hj) D[k] (List.getElem_mem hk) (lt k i hk hi hki) (lt k j hk hj hkj)
    ⟨hn _ (List.getElem_mem hi), h1⟩ ⟨hn _ (List.getElem_mem hk), h2⟩).2

theorem ilu0_diag (I : BlockInv R) (A F : SpMat R) (hA : A.WF) (h : Ilu.ilu0 I A = .ok F) : ∀ i, i < A.n → A.Has i i := by
  intro i hi
  obtain ⟨h1, -, p, f, h3, -⟩ := ilu0_finished I A F hA h i hi
  exact has_of_map hi h1 ⟨f, h3⟩

theorem ilu0_answers (I : BlockInv R) (A : SpMat R) (hA : A.WF) :
    Answers (V := V) (ilu0Solver I) A (fun D r c => NoFill A D → SolvesOn Ilu.act A D r c) := by
  intro D S hD hn hS lhs rhs r l hr hl hNF
  have hg : ∀ g ∈ D, g < A.n ∧ (A.row g).Asc := fun g h => ⟨hn g h, (hA g (hn g h)).1⟩
  unfold ilu0Solver at hS
  rw [copyToLocal_eq hD hg, Res.ok_bind] at hS
  simp only [Res.bind_eq_ok] at hS
  obtain ⟨F, hF, hS⟩ := hS
  injection hS with hS
  subst hS
  have hwf := localMat_wf (A := A) hD (fun g h => (hg g h).2)
  obtain ⟨piv, v', h1, h2, h3⟩ := C19_ilu0_then_backsolve I (localMat A D) F hwf rfl hF lhs rhs
  rw [h2] at hl
  injection hl with hl
  subst hl
  refine solvesOn_spread _ A hD hr fun i hi => ?_
  refine factors_solve (localMat A D) F piv hwf rfl ?_ v' rhs h3 i hi
  intro i j hi hj
  by_cases h : (localMat A D).Has i j
  · exact h1.product i j h
  · rw [entry_of_not_has hi h]
    exact product_outside h1.n (fun i j hi h' => has_of_map hi (h1.pattern i hi) h'.2) (ilu0_diag I _ F hwf hF) (noFill_local hD hn hNF) hi h

theorem ilun_answers (I : BlockInv R) (A : SpMat R) (hA : A.WF) :
    Answers (V := V) (ilunSolver I) A (fun D r c => DiagOn A D → NoFill A D → SolvesOn Ilu.act A D r c) := by
  intro D S hD hn hS lhs rhs r l hr hl hDg hNF
  have hg : ∀ g ∈ D, g < A.n ∧ (A.row g).Asc := fun g h => ⟨hn g h, (hA g (hn g h)).1⟩
  unfold ilunSolver at hS
  rw [copyToLocal_eq hD hg, Res.ok_bind] at hS
  simp only [Res.bind_eq_ok] at hS
  obtain ⟨F, hF, hS⟩ := hS
  injection hS with hS
  subst hS
  have hwf := localMat_wf (A := A) hD (fun g h => (hg g h).2)
  have hdiag : (localMat A D).HasDiag := by
    intro i hi
    exact ((localMat_has hD hi hi).2 (hDg _ (List.getElem_mem hi)).2).2
  obtain ⟨G, B, hG, bn, bm, bwf, bG, bA, he⟩ := C21_ilun_is_ilu0_on_fill_pattern I ((bandOf (localMat A D) + 1) / 2) (localMat A D) hwf hdiag
  rw [he] at hF
  have hcl := noFill_local hD hn hNF
  have hBhas : ∀ i j, i < (localMat A D).n → B.Has i j → (localMat A D).Has i j := by
    intro i
    induction i using Nat.strong_induction_on with
    | _ i ih =>
      intro j
      induction j using Nat.strong_induction_on with
      | _ j ihj =>
        intro hi hB
        by_contra hc
        have hg' := (bG i j hi).1 hB
        apply hg'
        refine hG.none i j hi hc ?_
        rintro k g ⟨hki, hkj, ⟨x, hx, -⟩, hy, -⟩
        have h1 : (localMat A D).Has i k := ihj k hkj hi ((bG i k hi).2 (by rw [hx]; simp))
        have h2 : (localMat A D).Has k j := ih k hki j (by omega) ((bG k j (by omega)).2 (by rw [hy]; simp))
        exact hc (hcl i j k hki hkj h1 h2)
  obtain ⟨piv, v', h1, h2, h3⟩ := C19_ilu0_then_backsolve I B F bwf (by rw [bm, bn]; rfl) hF lhs rhs
  rw [h2] at hl
  injection hl with hl
  subst hl
  refine solvesOn_spread _ A hD hr fun i hi => ?_
  rw [bn] at h3
  refine factors_solve (localMat A D) F piv hwf rfl ?_ v' rhs h3 i hi
  intro i j hi hj
  by_cases h : (localMat A D).Has i j
  · have hb : B.Has i j := (bG i j hi).2 (C21_pattern_contains hG h)
    have := h1.product i j hb
    rw [bn] at this
    rw [this, bA i j hi]
  · rw [entry_of_not_has hi h]
    refine product_outside (by rw [h1.n, bn]) (fun i j hi' h' => hBhas i j hi' (has_of_map (by rw [bn]; exact hi') (h1.pattern i (by rw [bn]; exact hi')) h'.2))
      (fun i hi => ⟨hi, hdiag i hi⟩) hcl hi h

end Ilu

end Ovl
end Istl
