import Verif.Lemmas.AmgHierarchy3
import Verif.Props.C52

/-!
# C59 The matrix hierarchy of AMG

For every structurally symmetric square matrix, every dependency criterion and all coarsening parameters with
`minAggregateSize ≤ maxAggregateSize`.
-/

namespace Istl
namespace Amg
open Finset MatMat
variable {B : Type}

section
variable [Ring B] (dep : Bool → SpMat B → Props) (c : Crit) (h : HierCrit) (fuel : Nat) (junk : B)

/-- **C59.** `build` ends, without undefined behaviour, with a Galerkin hierarchy on top of the given matrix. It has at most `maxLevel+1`
levels. Each coarser level was made because the level before had more than `coarsenTarget` unknowns, with the aggregates the aggregation
makes for its matrix, and reduces the unknowns by the minimal rate. It stops for one of three reasons: the number of levels is
reached, the coarsest matrix is small enough, or its aggregation does not reduce it by the minimal rate. -/
theorem C59_build (hc : c.minSize ≤ c.maxSize) (A : SpMat B) (hA : A.WF) (hsq : A.n = A.m) (hsym : ∀ i j, A.Has i j → A.Has j i)
    (hf : A.n + 1 ≤ fuel) : ∃ s, MH.build dep c h fuel junk A = some (.ok s) ∧ IsHierarchy A s ∧ s.mats.length ≤ h.maxLevel + 1 ∧
      (∀ l, l + 1 < s.mats.length → ∃ fine coarse G b, s.mats[l]? = some fine ∧ s.mats[l + 1]? = some coarse ∧
        h.coarsenTarget < (fine.n : Int) ∧ 0 < coarse.n ∧ coarse.n ≤ fine.n ∧ h.minRate * coarse.n ≤ fine.n ∧
        (∀ i j, coarse.Has i j → coarse.Has j i) ∧
        matrixGraph fine = .ok G ∧ buildAggregates G (dep (l == 0) fine) c fuel = some (.ok b) ∧
        s.maps[l]? = some ((List.range fine.n).map b.st.agg)) ∧
      ∃ last, s.mats[s.mats.length - 1]? = some last ∧
        (s.mats.length = h.maxLevel + 1 ∨ (last.n : Int) ≤ h.coarsenTarget ∨
          ∃ G b, matrixGraph last = .ok G ∧ buildAggregates G (dep (s.mats.length == 1) last) c fuel = some (.ok b) ∧
            (b.con + b.iso = 0 ∨ (last.n : ℚ) / ((b.con + b.iso : Nat) : ℚ) < h.minRate)) := by
  obtain ⟨s, L, A', e, hL, I, hS⟩ := build_loop dep c h fuel junk hc A hA hsq hsym hf
  refine ⟨_, e, ⟨by simp [I.maps_len, I.mats_len], I.first, by simp, ?_⟩, by simp only [I.mats_len]; omega, ?_, ?_⟩
  · intro l hl
    simp only [I.mats_len] at hl
    obtain ⟨fine, map, coarse, f1, f2, f3, f4, _⟩ := I.facts l (by omega)
    exact ⟨fine, map, coarse, f1, by rw [List.getElem?_append_left (by rw [I.maps_len]; omega)]; exact f2, f3, f4⟩
  · intro l hl
    simp only [I.mats_len] at hl
    obtain ⟨fine, map, coarse, f1, f2, f3, f4, f5, f6, f7, G, b, f8, f9, rfl, f10⟩ := I.facts l (by omega)
    unfold rateBreakdown at f6
    push Not at f6
    have hpos : (0 : ℚ) < coarse.n := by exact_mod_cast Nat.pos_of_ne_zero f6.1
    refine ⟨fine, coarse, G, b, f1, f3, f5, Nat.pos_of_ne_zero f6.1, ?_, ?_, f7, f8, f9, ?_⟩
    · -- every aggregate has a vertex of its own
      have : ∀ a ∈ range coarse.n, ∃ i ∈ range fine.n, ((List.range fine.n).map b.st.agg)[i]? = some (.id a) := by
        intro a ha
        obtain ⟨i, hi, q⟩ := f4.onto a (mem_range.mp ha)
        exact ⟨i, mem_range.mpr hi, q⟩
      choose! g hg1 hg2 using this
      have := Finset.card_le_card_of_injOn g hg1 (by
        intro x hx y hy hxy
        have := (hg2 x hx).symm.trans (hxy ▸ hg2 y hy)
        simpa using this)
      simpa using this
    · rw [le_div_iff₀ hpos] at f6
      exact f6.2
    · rw [List.getElem?_append_left (by rw [I.maps_len]; omega)]; exact f2
  · refine ⟨A', by simp only [I.mats_len]; exact I.cur, ?_⟩
    rcases hS with q | q | ⟨G, b, q1, q2, q3⟩
    · exact Or.inl (by simp only [I.mats_len]; omega)
    · exact Or.inr (Or.inl q)
    · refine Or.inr (Or.inr ⟨G, b, q1, ?_, q3⟩)
      have : (s.mats.length == 1) = (L == 0) := by
        rw [I.mats_len]; cases L <;> simp
      simp only [this]
      exact q2

/-- **C59.** With a rate `r ≥ 1` demanded, level `l` has at most `n / r^l` unknowns, and all levels together at most `n r / (r-1)`. -/
theorem C59_sizes (hc : c.minSize ≤ c.maxSize) (A : SpMat B) (hA : A.WF) (hsq : A.n = A.m) (hsym : ∀ i j, A.Has i j → A.Has j i)
    (hf : A.n + 1 ≤ fuel) (s : MH B) (hs : MH.build dep c h fuel junk A = some (.ok s)) (hr : 1 ≤ h.minRate) :
    (∀ (l : Nat) (C : SpMat B), s.mats[l]? = some C → h.minRate ^ l * (C.n : ℚ) ≤ (A.n : ℚ)) ∧
      (h.minRate - 1) * ((s.mats.map fun C => (C.n : ℚ)).sum) ≤ h.minRate * (A.n : ℚ) := by
  obtain ⟨s', e, H, _, hst, _⟩ := C59_build dep c h fuel junk hc A hA hsq hsym hf
  rw [e] at hs
  injection hs with hs; injection hs with hs
  subst hs
  have r0 : (0 : ℚ) ≤ h.minRate := by linarith
  constructor
  · intro l
    induction l with
    | zero =>
      intro C hC
      rw [H.finest] at hC
      injection hC with hC
      subst hC; simp
    | succ l ih =>
      intro C hC
      obtain ⟨fine, coarse, G, b, f1, f3, _, _, _, f6, _⟩ := hst l (hier_mat H hC)
      rw [hC] at f3
      injection f3 with f3
      subst f3
      have := ih fine f1
      calc h.minRate ^ (l + 1) * (C.n : ℚ) = h.minRate ^ l * (h.minRate * C.n) := by ring
        _ ≤ h.minRate ^ l * fine.n := mul_le_mul_of_nonneg_left f6 (pow_nonneg r0 l)
        _ ≤ A.n := this
  · have key : ∀ k, k < s'.mats.length → ∃ C, s'.mats[k]? = some C ∧
        (h.minRate - 1) * (((s'.mats.take (k + 1)).map fun C => (C.n : ℚ)).sum) + C.n ≤ h.minRate * (A.n : ℚ) := by
      intro k
      induction k with
      | zero =>
        intro hk
        refine ⟨A, H.finest, ?_⟩
        rw [List.take_succ, H.finest]
        simp
        linarith
      | succ k ih =>
        intro hk
        obtain ⟨D, hD, hle⟩ := ih (by omega)
        obtain ⟨fine, coarse, G, b, f1, f3, _, _, _, f6, _⟩ := hst k hk
        rw [f1] at hD
        injection hD with hD
        subst hD
        refine ⟨coarse, f3, ?_⟩
        rw [List.take_succ, f3]
        simp only [Option.toList_some, List.map_append, List.sum_append, List.map_cons, List.map_nil, List.sum_cons, List.sum_nil, add_zero]
        nlinarith
    have hlen : 0 < s'.mats.length := hier_mat H H.finest
    obtain ⟨C, _, hle⟩ := key (s'.mats.length - 1) (by omega)
    rw [show s'.mats.length - 1 + 1 = s'.mats.length by omega, List.take_length] at hle
    have : (0 : ℚ) ≤ C.n := by positivity
    linarith

end

/-- **C59.** In a Galerkin hierarchy each entry of each level is the sum of the entries of the finest matrix between two clusters of
unknowns: those which the maps lead to its row and to its column. -/
theorem C59_entries [AddCommGroup B] {A : SpMat B} {s : MH B} (H : IsHierarchy A s) (l : Nat) (C : SpMat B) (hC : s.mats[l]? = some C)
    (a b : Nat) (ha : a < C.n) (hb : b < C.n) : C.entry a b =
      ∑ i ∈ range A.n, ∑ j ∈ range A.n, if cluster s.maps l i = some a ∧ cluster s.maps l j = some b then A.entry i j else 0 :=
  composite_entry H l C hC a ha b hb

/-- **C59.** An entry off the diagonal is stored on level `l` exactly if the finest matrix stores an entry between the clusters; on coarse
levels the diagonal is always stored. -/
theorem C59_pattern [AddCommGroup B] {A : SpMat B} {s : MH B} (H : IsHierarchy A s) (l : Nat) (C : SpMat B) (hC : s.mats[l]? = some C)
    (a b : Nat) (ha : a < C.n) :
    (a ≠ b → (C.Has a b ↔ ∃ i j, A.Has i j ∧ cluster s.maps l i = some a ∧ cluster s.maps l j = some b)) ∧ (0 < l → C.Has a a) := by
  constructor
  · intro hne
    have := composite_pattern H l C hC a ha b
    constructor
    · intro hh
      rcases this.mp (Or.inl hh) with e | q
      · exact absurd e.symm hne
      · exact q
    · intro q
      rcases this.mpr (Or.inr q) with hh | e
      · exact hh
      · exact absurd e.symm hne
  · intro hl
    obtain ⟨l, rfl⟩ : ∃ k, l = k + 1 := ⟨l - 1, by omega⟩
    obtain ⟨fine, _, h2⟩ := hier_step H hC
    exact (h2.pattern a ha a).mpr (Or.inl rfl)

/-- **C59.** Row sums: if no vertex is lost, the row sums of level `l` are the sums of the row sums of the finest level over the clusters (so
that constants in the kernel of the finest matrix stay in the kernel). -/
theorem C59_rowsums [AddCommGroup B] {A : SpMat B} {s : MH B} (H : IsHierarchy A s) (l : Nat) (C : SpMat B) (hC : s.mats[l]? = some C)
    (hall : ∀ i < A.n, cluster s.maps l i ≠ none) (a : Nat) (ha : a < C.n) :
    ∑ b ∈ range C.n, C.entry a b = ∑ i ∈ range A.n, if cluster s.maps l i = some a then ∑ j ∈ range A.n, A.entry i j else 0 := by
  rw [Finset.sum_congr rfl fun b hb => composite_entry H l C hC a ha b (mem_range.mp hb), Finset.sum_comm]
  apply Finset.sum_congr rfl
  intro i _
  rw [Finset.sum_comm]
  by_cases hi : cluster s.maps l i = some a
  · rw [if_pos hi]
    apply Finset.sum_congr rfl
    intro j hj
    obtain ⟨q, hq⟩ := Option.ne_none_iff_exists'.mp (hall j (mem_range.mp hj))
    have hlt := cluster_lt H l C hC j (mem_range.mp hj) q hq
    rw [Finset.sum_eq_single q]
    · simp [hi, hq]
    · intro b _ hb; simp [hq, Ne.symm hb]
    · intro hn; exact absurd (mem_range.mpr hlt) hn
  · rw [if_neg hi]
    exact Finset.sum_eq_zero fun j _ => Finset.sum_eq_zero fun b _ => if_neg fun q => hi q.1

/-- **C59.** If the finest matrix is symmetric (positive definite), so are the matrices of all levels. -/
theorem C59_spd {K V : Type} [CommRing K] [LinearOrder K] [AddCommGroup V] [Module K V] [AddCommGroup B] {D : V → V → K} (hD : ScalarProd D)
    (act : B →+ V →+ V) {A : SpMat B} {s : MH B} (H : IsHierarchy A s) :
    (A.Symmetric D (fun b => act b) → ∀ (l : Nat) (C : SpMat B), s.mats[l]? = some C → C.Symmetric D (fun b => act b)) ∧
    (A.PosDef D (fun b => act b) → ∀ (l : Nat) (C : SpMat B), s.mats[l]? = some C → C.PosDef D (fun b => act b)) := by
  constructor
  · intro hA l
    induction l with
    | zero => intro C hC; rw [H.finest] at hC; injection hC with hC; subst hC; exact hA
    | succ l ih =>
      intro C hC
      obtain ⟨fine, h1, h2⟩ := hier_step H hC
      exact coarse_symmetric hD act h2 (ih fine h1)
  · intro hA l
    induction l with
    | zero => intro C hC; rw [H.finest] at hC; injection hC with hC; subst hC; exact hA
    | succ l ih =>
      intro C hC
      obtain ⟨fine, h1, h2⟩ := hier_step H hC
      exact coarse_posdef hD act h2 (ih fine h1)

theorem nonzeros_card {A : SpMat B} (hA : A.WF) (hsq : A.m = A.n) (S : Finset (Nat × Nat)) (hS : ∀ i j, (i, j) ∈ S ↔ A.Has i j) :
    nonzeros A = S.card := by
  classical
  have e : S = (range A.n).biUnion fun i => ((A.row i).map fun e => (i, e.1)).toFinset := by
    ext ⟨i, j⟩
    rw [hS]
    simp only [mem_biUnion, mem_range, List.mem_toFinset, List.mem_map, SpMat.Has, Row.Has]
    constructor
    · rintro ⟨hi, b, hb⟩; exact ⟨i, hi, (j, b), hb, rfl⟩
    · rintro ⟨i', hi, e, he, q⟩
      simp only [Prod.mk.injEq] at q
      obtain ⟨rfl, rfl⟩ := q
      exact ⟨hi, e.2, he⟩
  rw [e, Finset.card_biUnion]
  · unfold nonzeros
    apply Finset.sum_congr rfl
    intro i hi
    rw [List.toFinset_card_of_nodup]
    · simp
    · have := (hA i (mem_range.mp hi)).1.nodup
      have e2 : ((A.row i).map fun e => (i, e.1)) = ((A.row i).map Prod.fst).map fun j => (i, j) := by simp [Function.comp_def]
      rw [e2]
      exact this.map fun x y hxy => by simpa using hxy
  · intro i _ i' _ hne
    rw [Function.onFun, Finset.disjoint_left]
    intro x hx hx'
    simp only [List.mem_toFinset, List.mem_map] at hx hx'
    obtain ⟨_, _, rfl⟩ := hx
    obtain ⟨_, _, q⟩ := hx'
    simp only [Prod.mk.injEq] at q
    exact hne q.1.symm

/-- **C59.** No level stores more entries than the finest one, if that has a full diagonal: the operator complexity is at most the number of
levels. -/
theorem C59_nonzeros [AddCommGroup B] {A : SpMat B} {s : MH B} (H : IsHierarchy A s) (hd : ∀ i < A.n, A.Has i i) :
    (∀ (l : Nat) (C : SpMat B), s.mats[l]? = some C → nonzeros C ≤ nonzeros A) ∧ (s.mats.map nonzeros).sum ≤ s.mats.length * nonzeros A := by
  classical
  have step : ∀ {fine coarse : SpMat B} {map : List Agg}, IsCoarsening fine map coarse → (∀ i < fine.n, fine.Has i i) →
      nonzeros coarse ≤ nonzeros fine ∧ ∀ i < coarse.n, coarse.Has i i := by
    intro fine coarse map hc hdf
    have hin : ∀ {C : SpMat B}, C.WF → C.m = C.n → ∀ i j, (i, j) ∈ ((range C.n) ×ˢ (range C.n)).filter (fun p => C.Has p.1 p.2) ↔ C.Has i j := by
      intro C hw hs i j
      simp only [mem_filter, mem_product, mem_range]
      constructor
      · exact fun q => q.2
      · intro q
        obtain ⟨hi, b, hb⟩ := q
        have := (hw i hi).2 _ hb
        exact ⟨⟨hi, by rw [← hs]; exact this⟩, hi, b, hb⟩
    refine ⟨?_, fun i hi => (hc.pattern i hi i).mpr (Or.inl rfl)⟩
    rw [nonzeros_card hc.wf.2 hc.square.2 _ (hin hc.wf.2 hc.square.2), nonzeros_card hc.wf.1 hc.square.1 _ (hin hc.wf.1 hc.square.1)]
    let num : Nat → Nat := fun i => match map[i]? with | some (.id a) => a | _ => 0
    have hnum : ∀ i a, map[i]? = some (.id a) → num i = a := by intro i a q; simp [num, q]
    refine le_trans (Finset.card_le_card (t := (((range fine.n) ×ˢ (range fine.n)).filter (fun p => fine.Has p.1 p.2)).image
      fun p => (num p.1, num p.2)) ?_) Finset.card_image_le
    rintro ⟨a, b⟩ hab
    have hab := (hin hc.wf.2 hc.square.2 a b).mp hab
    rw [mem_image]
    rcases (hc.pattern a hab.1 b).mp hab with q | ⟨i, j, q, hi, hj⟩
    · obtain ⟨i, hi, hm⟩ := hc.onto a hab.1
      exact ⟨(i, i), (hin hc.wf.1 hc.square.1 i i).mpr (hdf i hi), by rw [q, hnum i a hm]⟩
    · exact ⟨(i, j), (hin hc.wf.1 hc.square.1 i j).mpr q, by rw [hnum i a hi, hnum j b hj]⟩
  have all : ∀ (l : Nat) (C : SpMat B), s.mats[l]? = some C → nonzeros C ≤ nonzeros A ∧ ∀ i < C.n, C.Has i i := by
    intro l
    induction l with
    | zero => intro C hC; rw [H.finest] at hC; injection hC with hC; subst hC; exact ⟨le_refl _, hd⟩
    | succ l ih =>
      intro C hC
      obtain ⟨fine, h1, h2⟩ := hier_step H hC
      obtain ⟨q1, q2⟩ := ih fine h1
      obtain ⟨q3, q4⟩ := step h2 q2
      exact ⟨le_trans q3 q1, q4⟩
  refine ⟨fun l C hC => (all l C hC).1, ?_⟩
  have : ∀ (L : List (SpMat B)), (∀ C ∈ L, nonzeros C ≤ nonzeros A) → (L.map nonzeros).sum ≤ L.length * nonzeros A := by
    intro L
    induction L with
    | nil => simp
    | cons C L ih =>
      intro hL
      have := ih fun D hD => hL D (List.mem_cons_of_mem _ hD)
      have := hL C (by simp)
      simp only [List.map_cons, List.sum_cons, List.length_cons, add_mul, one_mul]
      omega
  apply this
  intro C hC
  obtain ⟨l, hl, e⟩ := List.getElem_of_mem hC
  exact (all l C (by rw [List.getElem?_eq_getElem hl, e])).1

/-- **C59.** `recalculateGalerkin` after the values of the finest matrix were changed (the pattern kept) gives the Galerkin hierarchy of the new
matrix with the same maps and patterns. -/
theorem C59_recalculate [Ring B] {A A' : SpMat B} {s : MH B} (H : IsHierarchy A s) (hs : SamePat A A') :
    ∃ s', MH.recalculate { s with mats := s.mats.set 0 A' } = .ok s' ∧ IsHierarchy A' s' ∧ s'.maps = s.maps ∧
      s'.mats.length = s.mats.length ∧ ∀ (l : Nat) (C C' : SpMat B), s.mats[l]? = some C → s'.mats[l]? = some C' → SamePat C C' :=
  recalc_spec H hs

/-- **C59.** Recalculation without a change changes no entry. -/
theorem C59_recalculate_same [Ring B] {A : SpMat B} {s : MH B} (H : IsHierarchy A s) :
    ∃ s', s.recalculate = .ok s' ∧ ∀ (l : Nat) (C C' : SpMat B), s.mats[l]? = some C → s'.mats[l]? = some C' →
      SamePat C C' ∧ ∀ a < C.n, ∀ b < C.n, C'.entry a b = C.entry a b := by
  obtain ⟨s', e, H', em, el, hp⟩ := recalc_spec H (SamePat.rfl' A)
  have hset : s.mats.set 0 A = s.mats := by
    apply List.ext_getElem?
    intro i
    by_cases hi : i = 0
    · subst hi
      rw [List.getElem?_set_self (hier_mat H H.finest), H.finest]
    · rw [List.getElem?_set_ne (by omega)]
  rw [hset] at e
  refine ⟨s', e, fun l C C' h1 h2 => ⟨hp l C C' h1 h2, fun a ha b hb => ?_⟩⟩
  have hn := (hp l C C' h1 h2).1
  rw [composite_entry H l C h1 a ha b hb, composite_entry H' l C' h2 a (by omega) b (by omega), em]

/-- **C59.** `coarsenVector` gives one vector per level, of the size of the matrix; `coarsenSmoother` one smoother per level but the coarsest,
made for the matrix and the aggregates of that level. -/
theorem C59_vectors_smoothers [AddCommGroup B] {A : SpMat B} {s : MH B} (H : IsHierarchy A s) :
    s.coarsenVector A.n = s.mats.map SpMat.n ∧
    ∃ sm, s.coarsenSmoother = .ok sm ∧ sm.length + 1 = s.mats.length ∧
      ∀ l, l < sm.length → ∃ C m, s.mats[l]? = some C ∧ s.maps[l]? = some m ∧ sm[l]? = some (C, m) := by
  have hlen : 0 < s.mats.length := hier_mat H H.finest
  constructor
  · unfold MH.coarsenVector
    cases hm : s.mats with
    | nil => rw [hm] at hlen; simp at hlen
    | cons C L =>
      have := H.finest
      rw [hm] at this
      simp at this
      subst this
      simp
  · obtain ⟨sm, e, h1, h2⟩ := forRangeM_inv (s.mats.length - 1) (smootherStep s)
      (fun i (sm : List (SpMat B × List Agg)) => sm.length = i ∧
        ∀ l, l < i → ∃ C m, s.mats[l]? = some C ∧ s.maps[l]? = some m ∧ sm[l]? = some (C, m)) [] ⟨rfl, by intro l hl; omega⟩ (by
        rintro i sm hi ⟨h1, h2⟩
        obtain ⟨fine, map, coarse, f1, f2, f3, f4⟩ := H.step i (by omega)
        refine ⟨sm ++ [(fine, map)], by unfold smootherStep; rw [rd_ok.mpr f1, Res.ok_bind, rd_ok.mpr f2, Res.ok_bind], by simp [h1], ?_⟩
        intro l hl
        by_cases q : l = i
        · subst q; exact ⟨fine, map, f1, f2, by rw [List.getElem?_append_right (by omega)]; simp [h1]⟩
        · obtain ⟨C, m, q1, q2, q3⟩ := h2 l (by omega)
          exact ⟨C, m, q1, q2, by rw [List.getElem?_append_left (by omega)]; exact q3⟩)
    exact ⟨sm, e, by omega, fun l hl => h2 l (by omega)⟩

/-- **C59.** The destructor of a built hierarchy deletes every map exactly once (coarsest first). -/
theorem C59_destroy {M : Type} (levels : Nat) (maps : List M) (h0 : 0 < levels) (hl : maps.length = levels) :
    MH.destroy levels maps = .ok maps.reverse := by
  have hr : maps.reverse.length = levels := by simp [hl]
  obtain ⟨g, e, hg⟩ := forRangeM_inv (levels - 1) (fun l (gone : List M) => do let m ← rd maps.reverse l; .ok (gone ++ [m]))
    (fun i gone => gone = maps.reverse.take i) [] (by simp) (by
      rintro i gone hi rfl
      have hlt : i < maps.reverse.length := by omega
      refine ⟨_, by rw [rd_lt hlt, Res.ok_bind], ?_⟩
      rw [List.take_succ, List.getElem?_eq_getElem hlt]
      rfl)
  have hlt : levels - 1 < maps.reverse.length := by omega
  unfold MH.destroy
  rw [e, Res.ok_bind, rd_lt hlt, Res.ok_bind, hg]
  have : maps.reverse = maps.reverse.take (levels - 1 + 1) := by rw [List.take_of_length_le]; omega
  conv_rhs => rw [this, List.take_succ, List.getElem?_eq_getElem hlt]
  rfl

/-- **C59.** The destructor of an object on which `build` was not called dereferences the end of an empty list. -/
theorem C59_destroy_unbuilt_counterexample (A : SpMat B) : MH.destroy (MH.ctor A).mats.length (MH.ctor A).maps = .ub := by
  simp [MH.ctor, MH.destroy, forRangeM, rd]

/-- **C59.** `getCoarsestAggregatesOnFinest` on a hierarchy of at least two levels: if the drawing of random numbers ends, then the result assigns
a number to every unknown of the finest level: the coarsest aggregates have different numbers below their count, every unknown has that of
its aggregate, and unknowns that belong to no aggregate have 0. -/
theorem C59_coarsest_on_finest [AddCommGroup B] {A : SpMat B} {s : MH B} (H : IsHierarchy A s) (L : Nat) (C : SpMat B)
    (hL : s.mats.length = L + 2) (hC : s.mats[L + 1]? = some C) (hpos : 0 < C.n) (rnd : Nat → ℚ) (hr : ∀ k, 0 ≤ rnd k ∧ rnd k < 1)
    (fuel : Nat) (data : List Nat) (r : Res (List Nat)) (hres : s.coarsestOnFinest rnd fuel data = some r) :
    ∃ (out num : List Nat), r = .ok out ∧ out.length = A.n ∧ num.length = C.n ∧ num.Nodup ∧ (∀ x ∈ num, x < C.n) ∧
      ∀ i < A.n, out[i]? = match cluster s.maps (L + 1) i with
        | some a => num[a]?
        | none => some 0 := by
  have hml : s.maps.length = L + 2 := by rw [H.count, hL]
  -- the maps in reverse order
  have hmaps : s.maps = s.maps.take (L + 1) ++ [[]] := by
    have h1 := List.take_append_drop (L + 1) s.maps
    have h2 := H.last_map
    rw [List.getLast?_eq_getElem?, hml] at h2
    have h3 : s.maps.drop (L + 1) = [[]] := by
      rw [List.drop_eq_getElem_cons (by omega), List.drop_of_length_le (by omega)]
      simp at h2
      rw [List.getElem?_eq_getElem (by omega)] at h2
      injection h2 with h2
      rw [h2]
    rw [h3] at h1
    exact h1.symm
  have hlast : ∃ last, s.maps[L]? = some last ∧ s.maps.reverse = [] :: last :: (s.maps.take L).reverse := by
    refine ⟨s.maps[L], List.getElem?_eq_getElem (by omega), ?_⟩
    conv_lhs => rw [hmaps]
    rw [List.reverse_append, List.take_succ, List.getElem?_eq_getElem (show L < s.maps.length by omega)]
    simp
  obtain ⟨last, hl1, hrev⟩ := hlast
  obtain ⟨fine, map, coarse, f1, f2, f3, f4⟩ := H.step L (by omega)
  rw [hl1] at f2; injection f2 with f2; subst f2
  rw [hC] at f3; injection f3 with f3; subst f3
  have hmax := maxAggregate_eq f4.map_ok f4.onto hpos
  unfold MH.coarsestOnFinest at hres
  rw [hrev] at hres
  simp only [hmax] at hres
  cases hd : drawAll rnd C.n fuel C.n ([], 0) with
  | none => rw [hd] at hres; simp at hres
  | some num =>
    rw [hd] at hres
    simp only [Option.some.injEq] at hres
    obtain ⟨n1, n2, n3⟩ := drawAll_spec rnd hr C.n fuel hpos C.n ([], 0) num hd (by simp) (by simp)
    have n3 : num.1.length = C.n := by simpa using n3
    -- sizes of the levels from coarse to fine
    have hsz : ∀ i, i < L + 2 → ∃ D, s.mats[i]? = some D := fun i hi => ⟨s.mats[i], List.getElem?_eq_getElem (by omega)⟩
    let ns : List Nat := ((s.mats.take (L + 1)).map SpMat.n).reverse
    have hns : ∀ i, i ≤ L → ∃ D, s.mats[L - i]? = some D ∧ ns[i]? = some D.n := by
      intro i hi
      obtain ⟨D, hD⟩ := hsz (L - i) (by omega)
      refine ⟨D, hD, ?_⟩
      show (((s.mats.take (L + 1)).map SpMat.n).reverse)[i]? = _
      rw [List.getElem?_reverse (by simp; omega)]
      have : ((s.mats.take (L + 1)).map SpMat.n).length - 1 - i = L - i := by simp; omega
      rw [this, List.getElem?_map, List.getElem?_take_of_lt (by omega), hD]
      rfl
    have hms : ∀ i, i ≤ L → (last :: (s.maps.take L).reverse)[i]? = s.maps[L - i]? := by
      intro i hi
      have : last :: (s.maps.take L).reverse = (s.maps.take (L + 1)).reverse := by
        rw [List.take_succ, hl1]; simp
      rw [this, List.getElem?_reverse (by simp; omega)]
      have : (s.maps.take (L + 1)).length - 1 - i = L - i := by simp; omega
      rw [this, List.getElem?_take_of_lt (by omega)]
    let b0 : TwoBufs := (⟨[], data, decide (s.maps.length % 2 ≠ 0)⟩ : TwoBufs).setCoarse num.1
    have hb0 : b0.coarse = num.1 := by
      show ((⟨[], data, decide (s.maps.length % 2 ≠ 0)⟩ : TwoBufs).setCoarse num.1).coarse = num.1
      cases q : decide (s.maps.length % 2 ≠ 0) <;> simp [TwoBufs.setCoarse, TwoBufs.coarse]
    have hb0d : b0.coarseIsData = decide (s.maps.length % 2 ≠ 0) := by
      show ((⟨[], data, decide (s.maps.length % 2 ≠ 0)⟩ : TwoBufs).setCoarse num.1).coarseIsData = _
      cases q : decide (s.maps.length % 2 ≠ 0) <;> simp [TwoBufs.setCoarse]
    obtain ⟨b', e', v', d'⟩ := project_loop (last :: (s.maps.take L).reverse) ns b0 C.n (fun a => num.1.getD a 0)
      (by
        rw [hb0]
        refine ⟨n3, fun i hi => ?_⟩
        rw [rd_ok]
        simp only [List.getD_eq_getElem?_getD, List.getElem?_eq_getElem (show i < num.1.length by omega)]
        rfl)
      (by simp [ns]; omega)
      (by
        intro i m hi
        have hiL : i ≤ L := by
          by_contra hc
          rw [List.getElem?_eq_none (by simp; omega)] at hi
          simp at hi
        rw [hms i hiL] at hi
        obtain ⟨D, hD, hn⟩ := hns i hiL
        obtain ⟨fine', map', coarse', g1, g2, g3, g4⟩ := H.step (L - i) (by omega)
        rw [hD] at g1; injection g1 with g1; subst g1
        rw [hi] at g2; injection g2 with g2; subst g2
        refine ⟨D.n, hn, ?_⟩
        have : (C.n :: ns).getD i 0 = coarse'.n := by
          cases i with
          | zero =>
            rw [show L - 0 + 1 = L + 1 by omega, hC] at g3
            injection g3 with g3
            subst g3; simp
          | succ i =>
            obtain ⟨E, hE, hn'⟩ := hns i (by omega)
            rw [show L - (i + 1) + 1 = L - i by omega, hE] at g3
            injection g3 with g3
            subst g3
            simp only [List.getD_eq_getElem?_getD, List.getElem?_cons_succ, hn']
            rfl
        rw [this]
        exact g4.map_ok)
    have hdata : b'.coarseIsData = true := by
      rw [d', hb0d, hml]
      have : (last :: (s.maps.take L).reverse).length = L + 1 := by simp; omega
      rw [this]
      rcases Nat.mod_two_eq_zero_or_one L with q | q
      · have q1 : (L + 2) % 2 = 0 := by omega
        have q2 : (L + 1) % 2 = 1 := by omega
        simp [q1, q2]
      · have q1 : (L + 2) % 2 = 1 := by omega
        have q2 : (L + 1) % 2 = 0 := by omega
        simp [q1, q2]
    have hco : b'.coarse = b'.data := by simp [TwoBufs.coarse, hdata]
    have hend : (C.n :: ns).getLastD 0 = A.n := by
      obtain ⟨D, hD, hn⟩ := hns L (le_refl _)
      rw [Nat.sub_self, H.finest] at hD
      injection hD with hD
      subst hD
      have hnl : ns.length = L + 1 := by simp [ns]; omega
      rw [List.getLastD_cons, List.getLastD_eq_getLast?, List.getLast?_eq_getElem?, hnl]
      simp [hn]
    rw [hco, hend] at v'
    have hfun : (last :: (s.maps.take L).reverse).foldl (fun f m => P m f) (fun a => num.1.getD a 0) =
        (s.maps.take (L + 1)).foldr (fun m f => P m f) (fun a => num.1.getD a 0) := by
      have : last :: (s.maps.take L).reverse = (s.maps.take (L + 1)).reverse := by
        rw [List.take_succ, hl1]; simp
      rw [this, List.foldl_reverse]
    refine ⟨b'.data, num.1, ?_, v'.1, n3, n1, n2, ?_⟩
    · rw [← hres]
      show (List.foldlM projectStep b0 (last :: (s.maps.take L).reverse) >>= fun b => Res.ok b.data) = _
      rw [e']
      rfl
    · intro i hi
      have := rd_ok.mp (v'.2 i hi)
      rw [this, hfun, foldr_cluster s.maps (L + 1) (by omega)]
      cases hcl : cluster s.maps (L + 1) i with
      | none => rfl
      | some a =>
        have ha := cluster_lt H (L + 1) C hC i hi a hcl
        simp only [List.getD_eq_getElem?_getD, List.getElem?_eq_getElem (show a < num.1.length by omega)]
        rfl

/-- **C59.** With one level the function dereferences a map that does not exist. -/
theorem C59_one_level_counterexample (A : SpMat B) (rnd : Nat → ℚ) (fuel : Nat) (data : List Nat) :
    MH.coarsestOnFinest ⟨[A], [[]]⟩ rnd fuel data = some .ub := rfl

/-! ### A concrete hierarchy: the one-dimensional Laplacian on five vertices -/

/-- The matrix `tridiag(-1, 2, -1)` with five rows. -/
def hierDemo : SpMat Int := ⟨5, 5, fun i => match i with
  | 0 => [(0, 2), (1, -1)] | 1 => [(0, -1), (1, 2), (2, -1)] | 2 => [(1, -1), (2, 2), (3, -1)]
  | 3 => [(2, -1), (3, 2), (4, -1)] | 4 => [(3, -1), (4, 2)] | _ => []⟩

/-- The matrices as lists of rows. -/
def rowsOf : Option (Res (MH Int)) → List (List (List (Nat × Int)))
  | some (.ok s) => s.mats.map fun C => (List.range C.n).map C.row
  | _ => []

/-- The aggregates maps. -/
def mapsOf : Option (Res (MH Int)) → List (List Agg)
  | some (.ok s) => s.maps
  | _ => []

/-- The hypotheses of the theorems hold for `hierDemo`. -/
theorem hierDemo_ok : hierDemo.WF ∧ hierDemo.n = hierDemo.m ∧ (∀ i j, hierDemo.Has i j → hierDemo.Has j i) ∧
    ∀ i < hierDemo.n, hierDemo.Has i i := by
  refine ⟨?_, rfl, ?_, ?_⟩
  · intro i hi
    change i < 5 at hi
    interval_cases i <;> simp [hierDemo, Row.Asc]
  · rintro i j ⟨hi, b, hb⟩
    change i < 5 at hi
    interval_cases i <;> simp [hierDemo] at hb <;> (try rcases hb with ⟨rfl, _⟩ | ⟨rfl, _⟩ | ⟨rfl, _⟩) <;>
      (try rcases hb with ⟨rfl, _⟩ | ⟨rfl, _⟩) <;> simp [SpMat.Has, Row.Has, hierDemo]
  · intro i hi
    change i < 5 at hi
    interval_cases i <;> simp [SpMat.Has, Row.Has, hierDemo]

/-- Aggregates of two or three vertices, at most three levels, no more than one unknown on the coarsest level wanted: levels of 5, 2 and 1
unknowns. -/
example :
    rowsOf (MH.build (fun _ _ => demoProps) ⟨2, 3, 2, 15, true⟩ ⟨2, 1, 6 / 5⟩ 6 7 hierDemo) =
      [[[(0, 2), (1, -1)], [(0, -1), (1, 2), (2, -1)], [(1, -1), (2, 2), (3, -1)], [(2, -1), (3, 2), (4, -1)], [(3, -1), (4, 2)]],
        [[(0, 2), (1, -1)], [(0, -1), (1, 2)]], [[(0, 2)]]] ∧
    mapsOf (MH.build (fun _ _ => demoProps) ⟨2, 3, 2, 15, true⟩ ⟨2, 1, 6 / 5⟩ 6 7 hierDemo) =
      [[.id 0, .id 0, .id 1, .id 1, .id 1], [.id 0, .id 0], []] := by
  constructor <;> decide +kernel

/-- The numbers of the two aggregates of the second level on the finest one, for some random numbers. -/
example : ((MH.build (fun _ _ => demoProps) ⟨2, 3, 2, 15, true⟩ ⟨1, 1, 6 / 5⟩ 6 7 hierDemo).bind fun r =>
    match r with
    | .ok s => s.coarsestOnFinest (fun k => if k = 2 then 3 / 4 else 1 / 4) 5 [9]
    | _ => none) = some (.ok [0, 0, 1, 1, 1]) := by decide +kernel

end Amg
end Istl
