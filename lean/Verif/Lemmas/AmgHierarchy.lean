import Verif.Spec.AmgHierarchy
import Verif.Props.C41

/-! Lemmas for C59: building the hierarchy level by level -/

namespace Istl
namespace Amg
variable {B : Type} [Ring B]

theorem map_get (n : Nat) (agg : Nat → Agg) (i : Nat) (x : Agg) :
    ((List.range n).map agg)[i]? = some x ↔ i < n ∧ agg i = x := by
  rw [List.getElem?_map]
  by_cases hi : i < n
  · rw [List.getElem?_range hi]; simp [hi]
  · rw [List.getElem?_eq_none (by simp; omega)]; simp [hi]

/-- The coarsening of one matrix. -/
theorem coarsen_level (A : SpMat B) (hA : A.WF) (hsq : A.n = A.m) (hsym : ∀ i j, A.Has i j → A.Has j i)
    (P : Props) (c : Crit) (hc : c.minSize ≤ c.maxSize) (fuel : Nat) (hf : A.n + 1 ≤ fuel) (junk : B) :
    ∃ G b C, matrixGraph A = .ok G ∧ buildAggregates G P c fuel = some (.ok b) ∧ galerkinLevel fuel junk A G b = some (.ok C) ∧
      C.n = b.con + b.iso ∧ IsCoarsening A ((List.range A.n).map b.st.agg) C ∧ (∀ i j, C.Has i j → C.Has j i) ∧ C.n ≤ A.n := by
  obtain ⟨G, b, rows, C, h1, h2, h3, h4, hn, hm, hw, h5, h6⟩ := C41_coarsening A hA hsq hsym P c hc fuel hf junk
  obtain ⟨_, hGn, hGw, hadj⟩ := matrixGraph_wf A hA G h1
  have hs : ∀ u t, u < G.n → t ∈ G.adj u → u ∈ G.adj t := by
    intro u t hu ht
    have h1 := (hadj u (by omega) t).mp ht
    have h2 := hsym u t h1.1
    exact (hadj t h2.1 u).mpr ⟨h2, fun h => h1.2 h.symm⟩
  have hl : ∀ u, u < G.n → u ∉ G.adj u := fun u hu hc => ((hadj u (by omega) u).mp hc).2 rfl
  obtain ⟨b', e', p1, p2⟩ := C41_partition G hGw hs hl P c hc fuel (by omega)
  obtain ⟨b'', e'', _, _, p3, _, _⟩ := C41_connected G hGw hs hl P c hc fuel (by omega)
  rw [h2] at e' e''
  have eb : b' = b := by injection e' with e; injection e with e; exact e.symm
  have eb' : b'' = b := by injection e'' with e; injection e with e; exact e.symm
  subst eb; subst eb'
  rw [hGn] at p1 p2 p3
  have hpat : ∀ a < C.n, ∀ y, C.Has a y ↔ (y = a ∨ ∃ i j, A.Has i j ∧ ((List.range A.n).map b''.st.agg)[i]? = some (.id a) ∧
      ((List.range A.n).map b''.st.agg)[j]? = some (.id y)) := by
    intro a ha y
    rw [h5 a (by omega) y]
    constructor
    · rintro (h | ⟨i, j, h, hi, hj⟩)
      · exact Or.inl h
      · exact Or.inr ⟨i, j, h, (map_get _ _ _ _).mpr ⟨h.1, hi⟩, (map_get _ _ _ _).mpr ⟨(hsym i j h).1, hj⟩⟩
    · rintro (h | ⟨i, j, h, hi, hj⟩)
      · exact Or.inl h
      · exact Or.inr ⟨i, j, h, ((map_get _ _ _ _).mp hi).2, ((map_get _ _ _ _).mp hj).2⟩
  have hcol : ∀ a y, C.Has a y → y < C.n := by
    rintro a y ⟨ha, x, hx⟩
    have := (hw a ha).2 _ hx
    simp only at this
    omega
  refine ⟨G, b'', C, h1, h2, ?_, hn, ⟨⟨hsq.symm, by omega⟩, ⟨hA, hw⟩, ⟨by simp, ?_⟩, ?_, hpat, ?_⟩, ?_, ?_⟩
  · unfold galerkinLevel
    rw [h3]
    simp only [h4]
  · intro i hi
    rcases p1 i hi with h | ⟨x, hx, h⟩
    · exact Or.inl ((map_get _ _ _ _).mpr ⟨hi, h⟩)
    · exact Or.inr ⟨x, by omega, (map_get _ _ _ _).mpr ⟨hi, h⟩⟩
  · intro a ha
    obtain ⟨v, hv, h⟩ := p2 a (by omega)
    exact ⟨v, hv, (map_get _ _ _ _).mpr ⟨hv, h⟩⟩
  · intro a ha y hy
    exact h6 a (by omega) y (by omega)
  · intro a y h
    have hy := hcol a y h
    rcases (hpat a h.1 y).mp h with h | ⟨i, j, h, hi, hj⟩
    · subst h; assumption
    · exact (hpat y hy a).mpr (Or.inr ⟨j, i, hsym i j h, hj, hi⟩)
  · rw [hn, ← p3]
    unfold numBelow
    exact le_trans (Finset.card_filter_le _ _) (by simp)

variable (dep : Bool → SpMat B → Props) (c : Crit) (h : HierCrit) (fuel : Nat) (junk : B)

/-- What is known about level `l` and the next one. -/
def LevelFact (s : MH B) (l : Nat) : Prop :=
  ∃ fine map coarse, s.mats[l]? = some fine ∧ s.maps[l]? = some map ∧ s.mats[l + 1]? = some coarse ∧
    IsCoarsening fine map coarse ∧ h.coarsenTarget < (fine.n : Int) ∧ ¬ rateBreakdown h fine.n coarse.n ∧
    (∀ i j, coarse.Has i j → coarse.Has j i) ∧
    ∃ G b, matrixGraph fine = .ok G ∧ buildAggregates G (dep (l == 0) fine) c fuel = some (.ok b) ∧
      map = (List.range fine.n).map b.st.agg ∧ coarse.n = b.con + b.iso

/-- The invariant of the level loop. -/
structure LoopInv (A0 : SpMat B) (level : Nat) (A : SpMat B) (s : MH B) : Prop where
  maps_len : s.maps.length = level
  mats_len : s.mats.length = level + 1
  first : s.mats[0]? = some A0
  cur : s.mats[level]? = some A
  facts : ∀ l, l < level → LevelFact dep c h fuel s l
  wf : A.WF
  sq : A.n = A.m
  sym : ∀ i j, A.Has i j → A.Has j i
  size : A.n ≤ A0.n

/-- Why the loop ends. -/
def Stops (levels : Nat) (A : SpMat B) : Prop :=
  levels = h.maxLevel ∨ (A.n : Int) ≤ h.coarsenTarget ∨
    ∃ G b, matrixGraph A = .ok G ∧ buildAggregates G (dep (levels == 0) A) c fuel = some (.ok b) ∧ rateBreakdown h A.n (b.con + b.iso)

theorem levels_loop (hc : c.minSize ≤ c.maxSize) (A0 : SpMat B) (hf : A0.n + 1 ≤ fuel) : ∀ (todo level : Nat) (A : SpMat B) (s : MH B),
    level + todo = h.maxLevel → LoopInv dep c h fuel A0 level A s →
    ∃ s' L A', buildLevels dep c h fuel junk todo level A A.n s = some (.ok s') ∧ L ≤ h.maxLevel ∧
      LoopInv dep c h fuel A0 L A' s' ∧ Stops dep c h fuel L A' := by
  intro todo
  induction todo with
  | zero => intro level A s hl I; exact ⟨s, level, A, rfl, by omega, I, Or.inl (by omega)⟩
  | succ todo ih =>
    intro level A s hl I
    by_cases ht : (A.n : Int) ≤ h.coarsenTarget
    · exact ⟨s, level, A, by rw [buildLevels, if_pos ht], by omega, I, Or.inr (Or.inl ht)⟩
    obtain ⟨G, b, C, h1, h2, h3, hn, hst, hs, hle⟩ := coarsen_level A I.wf I.sq I.sym (dep (level == 0) A) c hc fuel
      (by have := I.size; omega) junk
    by_cases hr : rateBreakdown h A.n (b.con + b.iso)
    · refine ⟨s, level, A, ?_, by omega, I, Or.inr (Or.inr ⟨G, b, h1, h2, hr⟩)⟩
      simp only [buildLevels, if_neg ht, h1, h2, if_pos hr]
    have I' : LoopInv dep c h fuel A0 (level + 1) C ⟨s.mats ++ [C], s.maps ++ [(List.range A.n).map b.st.agg]⟩ := by
      refine ⟨by simp [I.maps_len], by simp [I.mats_len], ?_, ?_, ?_, hst.wf.2, hst.square.2.symm, hs, le_trans hle I.size⟩
      · rw [List.getElem?_append_left (by rw [I.mats_len]; omega)]; exact I.first
      · rw [List.getElem?_append_right (by rw [I.mats_len])]
        simp [I.mats_len]
      · intro l hl'
        by_cases e : l = level
        · subst e
          refine ⟨A, _, C, ?_, ?_, ?_, hst, by omega, by rw [hn]; exact hr, hs, G, b, h1, h2, rfl, hn⟩
          · rw [List.getElem?_append_left (by rw [I.mats_len]; omega)]; exact I.cur
          · rw [List.getElem?_append_right (by rw [I.maps_len])]; simp [I.maps_len]
          · rw [List.getElem?_append_right (by rw [I.mats_len])]; simp [I.mats_len]
        · obtain ⟨fine, map, coarse, f1, f2, f3, f4⟩ := I.facts l (by omega)
          refine ⟨fine, map, coarse, ?_, ?_, ?_, f4⟩
          · rw [List.getElem?_append_left (by rw [I.mats_len]; omega)]; exact f1
          · rw [List.getElem?_append_left (by rw [I.maps_len]; omega)]; exact f2
          · rw [List.getElem?_append_left (by rw [I.mats_len]; omega)]; exact f3
    obtain ⟨s', L, A', e, rest⟩ := ih (level + 1) C _ (by omega) I'
    refine ⟨s', L, A', ?_, rest⟩
    rw [hn] at e
    simp only [buildLevels, if_neg ht, h1, h2, if_neg hr, h3]
    exact e

/-- `build` as a whole. -/
theorem build_loop (hc : c.minSize ≤ c.maxSize) (A : SpMat B) (hA : A.WF) (hsq : A.n = A.m) (hsym : ∀ i j, A.Has i j → A.Has j i)
    (hf : A.n + 1 ≤ fuel) : ∃ s L A', MH.build dep c h fuel junk A = some (.ok { s with maps := s.maps ++ [[]] }) ∧ L ≤ h.maxLevel ∧
      LoopInv dep c h fuel A L A' s ∧ Stops dep c h fuel L A' := by
  have I : LoopInv dep c h fuel A 0 A (MH.ctor A) :=
    ⟨rfl, rfl, rfl, rfl, fun l hl => absurd hl (Nat.not_lt_zero _), hA, hsq, hsym, le_refl _⟩
  obtain ⟨s, L, A', e, rest⟩ := levels_loop dep c h fuel junk hc A hf h.maxLevel 0 A (MH.ctor A) (by omega) I
  refine ⟨s, L, A', ?_, rest⟩
  unfold MH.build
  rw [e]

end Amg
end Istl
