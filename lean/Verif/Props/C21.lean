import Verif.Lemmas.IluN
import Verif.Props.C17

/-! # C21: ILU(n), fill pattern and factors -/

namespace Istl
open IluN
variable {R : Type}

theorem IluN.RowInv.congr {n : Nat} {G G' : Nat → Nat → Option Nat} {S : Nat → Prop} {t : Nat} {L : Nat → Option Nat}
    (h : ∀ k, k < t → ∀ j, G k j = G' k j) (H : RowInv n G S t L) : RowInv n G' S t L := by
  have hcp : ∀ j k g, k < t → (Cp n G L j k g ↔ Cp n G' L j k g) := by
    intro j k g hk; unfold Cp; rw [h k hk]
  exact ⟨H.stored, fun j k g hj hk hc hf => H.fill j k g hj hk ((hcp j k g hk).mpr hc) fun k' g' hk' hc' =>
    hf k' g' hk' ((hcp j k' g' (by omega)).mp hc'),
    fun j hj hc => H.none j hj fun k g hk hc' => hc k g hk ((hcp j k g hk).mp hc')⟩

theorem symbolic_spec (n : Nat) (A : SpMat R) (hD : A.HasDiag) :
    ∃ gens, symbolic n A = .ok gens ∧ (∀ i, i < A.n → (gens i).Asc) ∧ FillGenerations n A fun i j => mapFind (gens i) j := by
  have key : ∀ t, t ≤ A.n → ∃ gens, forRangeM t (fun i gens => do
      let r ← symRow n gens i (initPattern (A.row i))
      Res.ok (upd gens i r)) (fun _ => []) = .ok gens ∧
      ∀ i, i < t → (gens i).Asc ∧ RowInv n (fun k j => mapFind (gens k) j) (fun j => j ∈ (A.row i).map Prod.fst) i
        (mapFind (gens i)) := by
    intro t
    induction t with
    | zero => intro _; exact ⟨_, rfl, fun i hi => by omega⟩
    | succ t ih =>
      intro ht
      obtain ⟨gens, h1, h2⟩ := ih (by omega)
      obtain ⟨g1, g2⟩ := initPattern_spec (A.row t)
      obtain ⟨r, r1, r2, r3⟩ := symRow_spec n gens t (initPattern (A.row t)) (fun j => j ∈ (A.row t).map Prod.fst) g1 g2
        (by obtain ⟨a, ha⟩ := hD t (by omega); exact List.mem_map_of_mem (f := Prod.fst) ha)
        (by
          intro k hk
          obtain ⟨e1, e2⟩ := h2 k hk
          refine ⟨e1, 0, (mapFind_some_iff e1 k 0).mp (e2.stored k ?_)⟩
          obtain ⟨a, ha⟩ := hD k (by omega); exact List.mem_map_of_mem (f := Prod.fst) ha)
      refine ⟨upd gens t r, by rw [forRangeM_succ, h1, Res.ok_bind, r1, Res.ok_bind], fun i hi => ?_⟩
      rcases Nat.lt_or_ge i t with hit | hit
      · obtain ⟨e1, e2⟩ := h2 i hit
        rw [upd_ne _ _ (by omega)]
        exact ⟨e1, e2.congr fun k hk j => by rw [upd_ne _ _ (by omega)]⟩
      · obtain rfl : i = t := by omega
        rw [upd_same]
        exact ⟨r2, r3.congr fun k hk j => by rw [upd_ne _ _ (by omega)]⟩
  obtain ⟨gens, h1, h2⟩ := key A.n (le_refl _)
  have hmem : ∀ i j, i < A.n → (A.Has i j ↔ j ∈ (A.row i).map Prod.fst) := by
    intro i j hi
    constructor
    · rintro ⟨-, a, ha⟩; exact List.mem_map_of_mem (f := Prod.fst) ha
    · intro h
      obtain ⟨x, hx, rfl⟩ := List.mem_map.mp h
      exact ⟨hi, x.2, hx⟩
  refine ⟨gens, h1, fun i hi => (h2 i hi).1, ⟨fun i j h => ?_, fun i j k g hi hj hc hf => ?_, fun i j hi hj hc => ?_⟩⟩
  · exact (h2 i h.1).2.stored j ((hmem i j h.1).mp h)
  · exact (h2 i hi).2.fill j k g (fun h => hj ((hmem i j hi).mpr h)) hc.1 hc.2 fun k' g' hk' hc' =>
      hf k' g' hk' ⟨by have := hc.1; omega, hc'⟩
  · exact (h2 i hi).2.none j (fun h => hj ((hmem i j hi).mpr h)) fun k g hk hc' => hc k g ⟨hk, hc'⟩

section Gen
variable {n : Nat} {A : SpMat R} {G : Nat → Nat → Option Nat}

/-- Every position of the pattern is stored in `A` or filled by its first coupling row. -/
theorem FillGenerations.cases (H : FillGenerations n A G) {i j : Nat} (hi : i < A.n) {g : Nat} (hg : G i j = some g) :
    (A.Has i j ∧ g = 0) ∨ ∃ k h, Couples n G i j k h ∧ g = h + 1 := by
  classical
  by_cases hA : A.Has i j
  · left; rw [H.stored i j hA] at hg; cases hg; exact ⟨hA, rfl⟩
  · right
    by_cases hc : ∃ k, ∃ h, Couples n G i j k h
    · obtain ⟨h, hh⟩ := Nat.find_spec hc
      refine ⟨Nat.find hc, h, hh, ?_⟩
      have := H.fill i j _ h hi hA hh fun k' g' hk' hc' => Nat.find_min hc hk' ⟨g', hc'⟩
      rw [this] at hg; injection hg with hg; exact hg.symm
    · rw [H.none i j hi hA fun k g h => hc ⟨k, g, h⟩] at hg; cases hg

/-- Generations never exceed the level `n`, nor the row number. -/
theorem C21_generation_bound (H : FillGenerations n A G) {i j g : Nat} (hi : i < A.n) (hg : G i j = some g) : g ≤ n ∧ g ≤ i := by
  induction i using Nat.strong_induction_on generalizing g with
  | _ i ih =>
    rcases H.cases hi hg with ⟨-, rfl⟩ | ⟨k, h, hc, rfl⟩
    · omega
    · obtain ⟨h1, -, -, h4, h5⟩ := hc
      have := ih k h1 (by omega) h4
      omega

/-- The pattern contains the pattern of `A`. -/
theorem C21_pattern_contains (H : FillGenerations n A G) {i j : Nat} (h : A.Has i j) : G i j ≠ none := by
  rw [H.stored i j h]; simp

/-- For `n = 0` the pattern is that of `A`. -/
theorem C21_pattern_level_zero (H : FillGenerations 0 A G) {i j : Nat} (hi : i < A.n) : G i j ≠ none ↔ A.Has i j := by
  refine ⟨fun h => ?_, C21_pattern_contains H⟩
  obtain ⟨g, hg⟩ := Option.ne_none_iff_exists'.mp h
  rcases H.cases hi hg with ⟨h, -⟩ | ⟨k, h, ⟨-, -, -, -, hc⟩, -⟩
  · exact h
  · omega

/-- For `n = 1` the pattern is the one of classical ILU(1): `A` and the positions `(i,j)` with a common `k` left of both such that
`A` stores `(i,k)` and `(k,j)`. -/
theorem C21_pattern_level_one (H : FillGenerations 1 A G) {i j : Nat} (hi : i < A.n) :
    G i j ≠ none ↔ A.Has i j ∨ ∃ k, k < i ∧ k < j ∧ A.Has i k ∧ A.Has k j := by
  constructor
  · intro h
    obtain ⟨g, hg⟩ := Option.ne_none_iff_exists'.mp h
    rcases H.cases hi hg with ⟨h, -⟩ | ⟨k, h, ⟨h1, h2, ⟨x, h3, h3'⟩, h4, h5⟩, -⟩
    · left; exact h
    · right
      have hk : k < A.n := by omega
      refine ⟨k, h1, h2, ?_, ?_⟩
      · rcases H.cases hi h3 with ⟨h, -⟩ | ⟨k', x', -, rfl⟩
        · exact h
        · omega
      · rcases H.cases hk h4 with ⟨h, -⟩ | ⟨k', x', -, rfl⟩
        · exact h
        · omega
  · rintro (h | ⟨k, h1, h2, h3, h4⟩)
    · exact C21_pattern_contains H h
    · intro hn
      classical
      by_cases hA : A.Has i j
      · exact C21_pattern_contains H hA hn
      · have hex : ∃ k, ∃ h, Couples 1 G i j k h := ⟨k, 0, h1, h2, ⟨0, H.stored i k h3, by omega⟩, H.stored k j h4, by omega⟩
        obtain ⟨h, hh⟩ := Nat.find_spec hex
        have := H.fill i j _ h hi hA hh fun k' g' hk' hc' => Nat.find_min hex hk' ⟨g', hc'⟩
        rw [this] at hn; cases hn

/-- Levels above 1 contain the pattern of level 1. -/
theorem C21_level_one_subset (hn : 1 ≤ n) (H : FillGenerations n A G) {G1 : Nat → Nat → Option Nat} (H1 : FillGenerations 1 A G1)
    {i j : Nat} (hi : i < A.n) (h : G1 i j ≠ none) : G i j ≠ none := by
  classical
  rcases (C21_pattern_level_one H1 hi).mp h with h | ⟨k, h1, h2, h3, h4⟩
  · exact C21_pattern_contains H h
  · intro hnone
    by_cases hA : A.Has i j
    · exact C21_pattern_contains H hA hnone
    · have hex : ∃ k, ∃ h, Couples n G i j k h := ⟨k, 0, h1, h2, ⟨0, H.stored i k h3, by omega⟩, H.stored k j h4, by omega⟩
      obtain ⟨h, hh⟩ := Nat.find_spec hex
      have := H.fill i j _ h hi hA hh fun k' g' hk' hc' => Nat.find_min hex hk' ⟨g', hc'⟩
      rw [this] at hnone; cases hnone

/-- With `n` at least the number of rows nothing is dropped: the pattern is closed under elimination. -/
theorem C21_full_level_closed (hn : A.n ≤ n) (H : FillGenerations n A G) {i j k : Nat} (hi : i < A.n) (hki : k < i) (hkj : k < j)
    (h1 : G i k ≠ none) (h2 : G k j ≠ none) : G i j ≠ none := by
  classical
  intro hnone
  by_cases hA : A.Has i j
  · exact C21_pattern_contains H hA hnone
  · obtain ⟨x, hx⟩ := Option.ne_none_iff_exists'.mp h1
    obtain ⟨y, hy⟩ := Option.ne_none_iff_exists'.mp h2
    have hb1 := (C21_generation_bound H hi hx).2
    have hb2 := (C21_generation_bound H (show k < A.n by omega) hy).2
    have hex : ∃ k, ∃ h, Couples n G i j k h := ⟨k, y, hki, hkj, ⟨x, hx, by omega⟩, hy, by omega⟩
    obtain ⟨h, hh⟩ := Nat.find_spec hex
    have := H.fill i j _ h hi hA hh fun k' g' hk' hc' => Nat.find_min hex hk' ⟨g', hc'⟩
    rw [this] at hnone; cases hnone

/-- The specification determines the generations uniquely. -/
theorem C21_generations_unique {G' : Nat → Nat → Option Nat} (H : FillGenerations n A G) (H' : FillGenerations n A G') :
    ∀ i j, i < A.n → G i j = G' i j := by
  classical
  intro i
  induction i using Nat.strong_induction_on with
  | _ i ih =>
    intro j
    induction j using Nat.strong_induction_on with
    | _ j ihj =>
      intro hi
      have hcp : ∀ k g, Couples n G i j k g ↔ Couples n G' i j k g := by
        intro k g
        unfold Couples
        constructor
        · rintro ⟨h1, h2, h3, h4⟩
          rw [ihj k h2 hi] at h3; rw [ih k h1 j (by omega)] at h4; exact ⟨h1, h2, h3, h4⟩
        · rintro ⟨h1, h2, h3, h4⟩
          rw [← ihj k h2 hi] at h3; rw [← ih k h1 j (by omega)] at h4; exact ⟨h1, h2, h3, h4⟩
      by_cases hA : A.Has i j
      · rw [H.stored i j hA, H'.stored i j hA]
      · by_cases hex : ∃ k, ∃ h, Couples n G i j k h
        · obtain ⟨h, hh⟩ := Nat.find_spec hex
          rw [H.fill i j _ h hi hA hh fun k' g' hk' hc' => Nat.find_min hex hk' ⟨g', hc'⟩]
          rw [H'.fill i j _ h hi hA ((hcp _ _).mp hh) fun k' g' hk' hc' => Nat.find_min hex hk' ⟨g', (hcp _ _).mpr hc'⟩]
        · rw [H.none i j hi hA fun k g h => hex ⟨k, g, h⟩, H'.none i j hi hA fun k g h => hex ⟨k, g, (hcp k g).mpr h⟩]

end Gen

section Numeric
variable [Ring R]
open Ilu

theorem copyMerge_spec (r : Row R) (ps : List Nat) (hr : r.Asc) (hp : ps.Pairwise (· < ·)) (hsub : ∀ e ∈ r, e.1 ∈ ps) :
    copyMerge r ps = ps.map fun p => (p, r.val p) := by
  fun_induction copyMerge r ps with
  | case1 ps => simp [Row.val]
  | case2 r hne =>
    exfalso
    cases r with
    | nil => exact hne rfl
    | cons e r => have := hsub e (by simp); simp at this
  | case3 j a as ps ih =>
    rw [asc_cons] at hr
    rw [List.pairwise_cons] at hp
    rw [ih hr.2 hp.2, List.map_cons, val_cons_eq]
    · congr 1
      apply List.map_congr_left
      intro p hps
      rw [val_cons_ne _ _ (by have := hp.1 p hps; omega)]
    · intro e he
      have h1 := hr.1 e he
      have h2 := hsub e (by simp [he])
      rcases List.mem_cons.mp h2 with h | h
      · simp at h1; omega
      · exact h
  | case4 j a as p ps h1 h2 ih =>
    exfalso
    rw [List.pairwise_cons] at hp
    have := hsub (j, a) (by simp)
    rcases List.mem_cons.mp this with h | h
    · exact h1 h
    · have := hp.1 _ h; simp at this; omega
  | case5 j a as p ps h1 h2 ih =>
    have hr' := hr
    rw [asc_cons] at hr
    rw [List.pairwise_cons] at hp
    rw [ih hr' hp.2, List.map_cons]
    · congr 2
      symm
      apply val_zero_of_lt
      intro e he
      rcases List.mem_cons.mp he with rfl | he
      · simp; omega
      · have := hr.1 e he; simp at this; omega
    · intro e he
      have h2' := hsub e he
      rcases List.mem_cons.mp h2' with h | h
      · rcases List.mem_cons.mp he with rfl | he
        · simp at h; omega
        · have := hr.1 e he; simp at this; omega
      · exact h

/-- What the numeric phase is run on: `A` extended by explicit zeros to the pattern of the generations. -/
theorem padded_spec (n : Nat) (A : SpMat R) (hA : A.WF) (gens : Nat → GenMap) (hasc : ∀ i, i < A.n → (gens i).Asc)
    (H : FillGenerations n A fun i j => mapFind (gens i) j) :
    (padded A gens).WF ∧ (∀ i j, i < A.n → ((padded A gens).Has i j ↔ mapFind (gens i) j ≠ none)) ∧
    ∀ i j, i < A.n → (padded A gens).entry i j = A.entry i j := by
  have hmem : ∀ i j, i < A.n → (mapFind (gens i) j ≠ none ↔ j ∈ (gens i).map Prod.fst) := by
    intro i j hi
    rw [Ne, mapFind_none_iff]
    simp only [not_forall, not_not, List.mem_map]
    constructor
    · rintro ⟨g, hg⟩; exact ⟨(j, g), hg, rfl⟩
    · rintro ⟨e, he, rfl⟩; exact ⟨e.2, he⟩
  have hrow : ∀ i, i < A.n → (padded A gens).row i = ((gens i).map Prod.fst).map fun p => (p, (A.row i).val p) := by
    intro i hi
    refine copyMerge_spec _ _ (hA i hi).1 (hasc i hi) fun e he => ?_
    rw [← hmem i e.1 hi]
    exact C21_pattern_contains H ⟨hi, e.2, he⟩
  have hcols : ∀ i, i < A.n → ((padded A gens).row i).map Prod.fst = (gens i).map Prod.fst := by
    intro i hi; rw [hrow i hi, List.map_map]; exact List.map_id'' (fun _ => rfl) _
  have hm : ∀ i j, i < A.n → mapFind (gens i) j ≠ none → j < A.m := by
    intro i
    induction i using Nat.strong_induction_on with
    | _ i ih =>
      intro j hi h
      obtain ⟨g, hg⟩ := Option.ne_none_iff_exists'.mp h
      rcases H.cases hi hg with ⟨⟨-, a, ha⟩, -⟩ | ⟨k, h, hc, -⟩
      · exact (hA i hi).2 _ ha
      · exact ih k hc.1 j (by have := hc.1; omega) (by have := hc.2.2.2.1; simp only at this; rw [this]; simp)
  have hasc' : ∀ i, i < A.n → ((padded A gens).row i).Asc := by
    intro i hi; unfold Row.Asc; rw [hcols i hi]; exact hasc i hi
  refine ⟨fun i hi => ⟨hasc' i hi, fun e he => ?_⟩, fun i j hi => ?_, fun i j hi => ?_⟩
  · apply hm i e.1 hi
    rw [hmem i _ hi, ← hcols i hi]
    exact List.mem_map_of_mem he
  · rw [hmem i j hi, ← hcols i hi, List.mem_map]
    constructor
    · rintro ⟨-, a, ha⟩; exact ⟨(j, a), ha, rfl⟩
    · rintro ⟨e, he, rfl⟩; exact ⟨hi, e.2, he⟩
  · show ((padded A gens).row i).val j = (A.row i).val j
    by_cases hj : j ∈ (gens i).map Prod.fst
    · exact Row.val_of_mem (hasc' i hi) (by rw [hrow i hi]; exact List.mem_map.mpr ⟨j, hj, rfl⟩)
    · rw [Row.val_of_not_mem, Row.val_of_not_mem]
      · intro b hb
        exact hj ((hmem i j hi).mp (C21_pattern_contains H ⟨hi, b, hb⟩))
      · intro b hb
        apply hj; rw [← hcols i hi]; exact List.mem_map_of_mem (f := Prod.fst) hb

/-- On every square matrix with stored diagonal the symbolic phase succeeds, and `blockILUDecomposition(A,n,ILU)` is ILU(0) on `A`
extended by zeros to the positions that have a generation. -/
theorem C21_ilun_is_ilu0_on_fill_pattern (I : BlockInv R) (n : Nat) (A : SpMat R) (hA : A.WF) (hD : A.HasDiag) :
    ∃ (G : Nat → Nat → Option Nat) (B : SpMat R), FillGenerations n A G ∧ B.n = A.n ∧ B.m = A.m ∧ B.WF ∧
      (∀ i j, i < A.n → (B.Has i j ↔ G i j ≠ none)) ∧ (∀ i j, i < A.n → B.entry i j = A.entry i j) ∧
      ilun I n A = ilu0 I B := by
  obtain ⟨gens, h1, h2, h3⟩ := symbolic_spec n A hD
  obtain ⟨p1, p2, p3⟩ := padded_spec n A hA gens h2 h3
  exact ⟨_, padded A gens, h3, rfl, rfl, p1, p2, p3, by unfold ilun; rw [h1, Res.ok_bind]⟩

/-- When ILU(n) succeeds, the stored pattern is the set of positions with a generation, and the product of the factors agrees with
`A` on all of them (with zero at the fill positions). -/
theorem C21_ilun_factors (I : BlockInv R) (n : Nat) (A F : SpMat R) (hA : A.WF) (hsq : A.m = A.n) (hD : A.HasDiag)
    (h : ilun I n A = .ok F) : ∃ G piv, FillGenerations n A G ∧
      (∀ i j, i < A.n → (F.Has i j ↔ G i j ≠ none)) ∧
      (∀ i, i < A.n → piv i * F.entry i i = 1 ∧ F.entry i i * piv i = 1) ∧
      ∀ i j, i < A.n → G i j ≠ none →
        ∑ k ∈ Finset.range A.n, lowerFactor F i k * upperFactor F piv k j = A.entry i j := by
  obtain ⟨G, B, hG, hn, hm, hB, hBG, hBA, he⟩ := C21_ilun_is_ilu0_on_fill_pattern I n A hA hD
  rw [he] at h
  obtain ⟨piv, hF⟩ := C17_ilu0_reproduces_on_pattern I B F hB (by rw [hm, hn, hsq]) h
  refine ⟨G, piv, hG, fun i j hi => ?_, fun i hi => hF.pivot i (by omega), fun i j hi hj => ?_⟩
  · rw [← hBG i j hi]
    have hp := hF.pattern i (by omega)
    constructor
    · rintro ⟨-, a, ha⟩
      have : j ∈ (B.row i).map Prod.fst := hp ▸ List.mem_map_of_mem (f := Prod.fst) ha
      obtain ⟨x, hx, rfl⟩ := List.mem_map.mp this
      exact ⟨by omega, x.2, hx⟩
    · rintro ⟨-, a, ha⟩
      have : j ∈ (F.row i).map Prod.fst := hp ▸ List.mem_map_of_mem (f := Prod.fst) ha
      obtain ⟨x, hx, rfl⟩ := List.mem_map.mp this
      exact ⟨by rw [hF.n]; omega, x.2, hx⟩
  · rw [← hBA i j hi, ← hn]
    exact hF.product i j ((hBG i j hi).mpr hj)

/-- With `n` at least the number of rows ILU(n) is the complete LU factorisation of `A`. -/
theorem C21_full_level_is_lu (I : BlockInv R) (n : Nat) (A F : SpMat R) (hA : A.WF) (hsq : A.m = A.n) (hD : A.HasDiag)
    (hn : A.n ≤ n) (h : ilun I n A = .ok F) :
    ∃ piv, (∀ i, i < A.n → piv i * F.entry i i = 1 ∧ F.entry i i * piv i = 1) ∧ ∀ i j, i < A.n → j < A.n →
      ∑ k ∈ Finset.range A.n, lowerFactor F i k * upperFactor F piv k j = A.entry i j := by
  obtain ⟨G, B, hG, hBn, hm, hB, hBG, hBA, he⟩ := C21_ilun_is_ilu0_on_fill_pattern I n A hA hD
  rw [he] at h
  obtain ⟨piv, h1, h2⟩ := C17_closed_pattern_exact I B F hB (by rw [hm, hBn, hsq])
    (by
      intro i j k hki hkj h1 h2
      have hi : i < A.n := hBn ▸ h1.1
      rw [hBG i j hi]
      exact C21_full_level_closed hn hG hi hki hkj ((hBG i k hi).mp h1) ((hBG k j (by omega)).mp h2)) h
  rw [hBn] at h1 h2
  exact ⟨piv, h1, fun i j hi hj => by rw [h2 i j hi hj, hBA i j hi]⟩

/-- ILU(n) with `n = 0` has the outcome of `blockILU0Decomposition`: success with the same rows, or the same exception. -/
theorem C21_level_zero_is_ilu0 (I : BlockInv R) (A : SpMat R) (hA : A.WF) (hsq : A.m = A.n) (hD : A.HasDiag) :
    (∀ F, ilu0 I A = .ok F → ∃ F', ilun I 0 A = .ok F' ∧ ∀ i, i < A.n → F'.row i = F.row i) ∧
    (∀ e, ilu0 I A = .throw e → ilun I 0 A = .throw e) := by
  obtain ⟨G, B, hG, hn, hm, hB, hBG, hBA, he⟩ := C21_ilun_is_ilu0_on_fill_pattern I 0 A hA hD
  have hhas : ∀ i j, B.Has i j ↔ A.Has i j := by
    intro i j
    constructor
    · intro h
      have hi : i < A.n := hn ▸ h.1
      exact (C21_pattern_level_zero hG hi).mp ((hBG i j hi).mp h)
    · intro h
      exact (hBG i j h.1).mpr ((C21_pattern_level_zero hG h.1).mpr h)
  have hmem : ∀ (X : SpMat R) i j, i < X.n → (X.Has i j ↔ j ∈ (X.row i).map Prod.fst) := by
    intro X i j hi
    constructor
    · rintro ⟨-, a, ha⟩; exact List.mem_map_of_mem (f := Prod.fst) ha
    · intro h
      obtain ⟨x, hx, rfl⟩ := List.mem_map.mp h
      exact ⟨hi, x.2, hx⟩
  have hpat : ∀ i, i < A.n → (B.row i).map Prod.fst = (A.row i).map Prod.fst := by
    intro i hi
    refine List.Perm.eq_of_pairwise (le := (· < ·)) (fun a b _ _ h1 h2 => absurd h1 (by omega)) (hB i (by omega)).1 (hA i hi).1 ?_
    rw [List.perm_ext_iff_of_nodup (hB i (by omega)).1.nodup (hA i hi).1.nodup]
    intro j
    rw [← hmem B i j (by omega), ← hmem A i j hi, hhas]
  have hBD : B.HasDiag := fun i hi => ((hhas i i).mpr ⟨by omega, hD i (by omega)⟩).2
  have htrans : ∀ F piv, IsILU A F piv ↔ IsILU B F piv := by
    intro F piv
    constructor
    · intro h
      exact ⟨by rw [h.n, hn], by rw [h.m, hm], fun i hi => by rw [h.pattern i (by omega), hpat i (by omega)],
        fun i hi => h.pivot i (by omega), fun i j hij => by
          have h1 := (hhas i j).mp hij
          rw [hBA i j h1.1, hn]; exact h.product i j h1⟩
    · intro h
      exact ⟨by rw [h.n, hn], by rw [h.m, hm], fun i hi => by rw [h.pattern i (by omega), hpat i (by omega)],
        fun i hi => h.pivot i (by omega), fun i j hij => by
          have h1 := (hhas i j).mpr hij
          rw [← hBA i j hij.1, ← hn]; exact h.product i j h1⟩
  have hBsq : B.m = B.n := by rw [hm, hn, hsq]
  obtain ⟨c1, c2⟩ := C18_ilu0_succeeds_iff_factorisation_exists I B hB hBsq hBD
  obtain ⟨d1, d2⟩ := C18_ilu0_succeeds_iff_factorisation_exists I A hA hsq hD
  refine ⟨fun F hF => ?_, fun e hF => ?_⟩
  · obtain ⟨piv, hI⟩ := C17_ilu0_reproduces_on_pattern I A F hA hsq hF
    obtain ⟨F', h1, h2⟩ := c1 F piv ((htrans F piv).mp hI)
    exact ⟨F', by rw [he, h1], fun i hi => h2 i (by omega)⟩
  · have hno : ¬ ∃ F piv, IsILU A F piv := by
      rintro ⟨F, piv, hI⟩
      obtain ⟨F', h1, -⟩ := d1 F piv hI
      rw [hF] at h1; cases h1
    have hee := d2 hno
    rw [hF] at hee; cases hee
    rw [he]
    exact c2 (by rintro ⟨F, piv, hI⟩; exact hno ⟨F, piv, (htrans F piv).mpr hI⟩)

end Numeric

/-! ### The fill pattern does not grow with the level -/

/-- A 7x7 matrix, given by the columns stored in each row. -/
def fillDemo : SpMat ℚ :=
  { n := 7, m := 7, row := fun i => (([[0, 1, 2, 3, 4, 5], [0, 1], [1, 2, 3], [1, 3, 5], [2, 4, 6], [5], [4, 6]] : List (List Nat)).getD i []).map fun j => (j, 1) }

/-- "The pattern grows with the level" is false: level 2 stores an entry of this matrix that level 3 does not store. -/
theorem C21_monotone_counterexample :
    ∃ i j, (∀ G, FillGenerations 2 fillDemo G → G i j ≠ none) ∧ ∀ G, FillGenerations 3 fillDemo G → G i j = none := by
  have hD : fillDemo.HasDiag := by
    intro i hi
    have hi : i < 7 := hi
    interval_cases i <;> exact ⟨1, by decide⟩
  obtain ⟨g2, h2, -, H2⟩ := symbolic_spec 2 fillDemo hD
  obtain ⟨g3, h3, -, H3⟩ := symbolic_spec 3 fillDemo hD
  refine ⟨6, 5, fun G hG => ?_, fun G hG => ?_⟩
  · rw [C21_generations_unique hG H2 6 5 (by decide)]
    have : (match symbolic 2 fillDemo with
      | .ok g => mapFind (g 6) 5
      | _ => none) = some 2 := by decide +kernel
    rw [h2] at this; simp only at this ⊢; rw [this]; simp
  · rw [C21_generations_unique hG H3 6 5 (by decide)]
    have : (match symbolic 3 fillDemo with
      | .ok g => mapFind (g 6) 5
      | _ => some 0) = none := by decide +kernel
    rw [h3] at this; exact this

/-- ILU(1) of a 3x3 matrix with one fill position: the fill is stored and the factorisation succeeds. -/
example : (match ilun numInv 1 { n := 3, m := 3, row := fun i => if i = 0 then [(0, 2), (2, 1)] else if i = 1 then [(0, 1), (1, 3)] else
      [(1, 1), (2, 5)] } with
    | .ok F => ((F.row 1).map Prod.fst, (F.row 2).map Prod.fst)
    | _ => ([], [])) = ([0, 1, 2], [1, 2]) := by
  decide +kernel

end Istl
