import Verif.Lemmas.Selection

/-! # Candidate selection: aggregates of vertices that are not isolated -/

namespace Istl
namespace Amg

variable (G : Graph) (P : Props) (st : AgSt)

/-- The list the tie-break keeps for the vertices `L` with the largest number of connections. -/
def tieList (al : Bool) (L : List Nat) : List Nat :=
  if al then (best (familiarity G st) L).dropWhile fun v => decide (v ∉ best (frontEdges G st) (best (familiarity G st) L))
  else best (frontEdges G st) (best (familiarity G st) L)

/-- What the tie-break knows after the vertices `L`. -/
structure TieTrack (al : Bool) (L : List Nat) (s : Sel) : Prop where
  con : ∃ q, s.maxCon = some q ∧ Tops (familiarity G st) L q
  nb : ∃ k : Nat, s.maxNb = (k : Int) ∧ Tops (frontEdges G st) (best (familiarity G st) L) k
  cands : s.cands = tieList G st al L

theorem dropWhile_snoc {p : Nat → Bool} : ∀ {l : List Nat} {v : Nat}, (∃ u ∈ l, p u = false) →
    (l ++ [v]).dropWhile p = l.dropWhile p ++ [v]
  | [], _, h => by simp at h
  | a :: l, v, h => by
    rw [List.cons_append, List.dropWhile_cons, List.dropWhile_cons]
    by_cases ha : p a = true
    · rw [if_pos ha, if_pos ha]
      refine dropWhile_snoc ?_
      obtain ⟨u, hu, e⟩ := h
      rcases List.mem_cons.mp hu with rfl | hu
      · rw [ha] at e; cases e
      · exact ⟨u, hu, e⟩
    · rw [if_neg ha, if_neg ha, List.cons_append]

theorem dropWhile_all {p : Nat → Bool} {l : List Nat} {v : Nat} (h : ∀ u ∈ l, p u = true) (hv : p v = false) :
    (l ++ [v]).dropWhile p = [v] := by
  induction l with
  | nil => simp [hv]
  | cons a l ih =>
    rw [List.cons_append, List.dropWhile_cons, if_pos (h a (by simp))]
    exact ih (fun u hu => h u (by simp [hu]))

theorem dropWhile_congr {p p' : Nat → Bool} : ∀ {l : List Nat}, (∀ u ∈ l, p u = p' u) → l.dropWhile p = l.dropWhile p'
  | [], _ => rfl
  | a :: l, h => by
    rw [List.dropWhile_cons, List.dropWhile_cons, h a (by simp), dropWhile_congr (fun u hu => h u (by simp [hu]))]

theorem mem_best {α : Type} [LinearOrder α] {f : Nat → α} {l : List Nat} {m : α} (h : Tops f l m) (v : Nat) :
    v ∈ best f l ↔ v ∈ l ∧ f v = m := by
  rw [best_eq h, List.mem_filter]; simp

variable {G st}

theorem tieList_true {L : List Nat} {k : Nat} (h : Tops (frontEdges G st) (best (familiarity G st) L) k) :
    tieList G st true L = (best (familiarity G st) L).dropWhile fun v => decide (frontEdges G st v ≠ k) := by
  unfold tieList
  rw [if_pos rfl]
  apply dropWhile_congr
  intro u hu
  rw [decide_eq_decide, mem_best h]
  tauto

theorem TieTrack.fresh (al : Bool) (v : Nat) (s : Sel) (h1 : s.maxCon = some (familiarity G st v)) (h2 : s.maxNb = (frontEdges G st v : Int))
    (h3 : s.cands = [v]) : TieTrack G st al [v] s := by
  obtain ⟨b1, b2⟩ := best_single (f := familiarity G st) (v := v)
  obtain ⟨c1, c2⟩ := best_single (f := frontEdges G st) (v := v)
  refine ⟨⟨_, h1, b2⟩, ⟨_, h2, by rw [b1]; exact c2⟩, ?_⟩
  rw [h3]
  cases al
  · unfold tieList; rw [b1, c1]; rfl
  · rw [tieList_true (by rw [b1]; exact c2), b1]; simp

theorem TieTrack.step {al : Bool} {L : List Nat} {s : Sel} (h : TieTrack G st al L s) (v : Nat) (hv : G.adj v ≠ []) :
    TieTrack G st al (L ++ [v]) (tieBreak G st al s v) ∧ (tieBreak G st al s v).maxTwo = s.maxTwo ∧
      (tieBreak G st al s v).maxOne = s.maxOne := by
  obtain ⟨⟨q, h1, h2⟩, ⟨k, h3, h4⟩, h5⟩ := h
  have e : tieBreak G st al s v = if conEq (some (familiarity G st v)) (some q) then
      (if (frontEdges G st v : Int) > k then { s with maxNb := (frontEdges G st v : Int), cands := [v] }
        else if al || decide ((frontEdges G st v : Int) = k) then { s with cands := s.cands ++ [v] } else s)
    else if conGt (some (familiarity G st v)) (some q) then
      { s with maxCon := some (familiarity G st v), maxNb := (frontEdges G st v : Int), cands := [v] } else s := by
    unfold tieBreak
    simp only [connectivity_spec G st v hv, front_spec, h1, h3]
  rw [e]
  rcases lt_trichotomy (familiarity G st v) q with hq | hq | hq
  · rw [conEq, conGt, if_neg (by simpa using hq.ne), if_neg (by simpa using hq.le)]
    obtain ⟨b1, b2⟩ := best_snoc_lt h2 hq
    refine ⟨⟨⟨q, h1, b2⟩, ⟨k, h3, by rw [b1]; exact h4⟩, ?_⟩, rfl, rfl⟩
    rw [h5]; unfold tieList; rw [b1]
  · rw [conEq, if_pos (by simpa using hq)]
    obtain ⟨b1, b2⟩ := best_snoc_eq h2 hq
    rcases lt_trichotomy (frontEdges G st v) k with hf | hf | hf
    · rw [if_neg (by omega)]
      obtain ⟨c1, c2⟩ := best_snoc_lt h4 hf
      cases al
      · rw [if_neg (by simp; omega)]
        refine ⟨⟨⟨q, h1, b2⟩, ⟨k, h3, by rw [b1]; exact c2⟩, ?_⟩, rfl, rfl⟩
        rw [h5]; unfold tieList; rw [b1, c1]; rfl
      · rw [if_pos (by simp)]
        refine ⟨⟨⟨q, h1, b2⟩, ⟨k, h3, by rw [b1]; exact c2⟩, ?_⟩, rfl, rfl⟩
        dsimp only
        rw [h5, tieList_true h4, tieList_true (by rw [b1]; exact c2), b1, dropWhile_snoc]
        obtain ⟨⟨u, hu, eu⟩, _⟩ := h4
        exact ⟨u, hu, by simp [eu]⟩
    · rw [if_neg (by omega), if_pos (by simp [hf])]
      obtain ⟨c1, c2⟩ := best_snoc_eq h4 hf
      refine ⟨⟨⟨q, h1, b2⟩, ⟨k, h3, by rw [b1]; exact c2⟩, ?_⟩, rfl, rfl⟩
      dsimp only
      cases al
      · rw [h5]; unfold tieList; rw [b1, c1]; rfl
      · rw [h5, tieList_true h4, tieList_true (by rw [b1]; exact c2), b1, dropWhile_snoc]
        obtain ⟨⟨u, hu, eu⟩, _⟩ := h4
        exact ⟨u, hu, by simp [eu]⟩
    · rw [if_pos (by omega)]
      obtain ⟨c1, c2⟩ := best_snoc_gt h4.2 hf
      refine ⟨⟨⟨q, h1, b2⟩, ⟨frontEdges G st v, rfl, by rw [b1]; exact c2⟩, ?_⟩, rfl, rfl⟩
      dsimp only
      cases al
      · unfold tieList; rw [b1, c1]; rfl
      · rw [tieList_true (by rw [b1]; exact c2), b1, dropWhile_all]
        · intro u hu
          have := h4.2 u hu
          simp; omega
        · simp
  · rw [conEq, conGt, if_neg (by simpa using hq.ne'), if_pos (by simpa using hq)]
    obtain ⟨b1, b2⟩ := best_snoc_gt h2.2 hq
    obtain ⟨c1, c2⟩ := best_single (f := frontEdges G st) (v := v)
    refine ⟨⟨⟨_, rfl, b2⟩, ⟨_, rfl, by rw [b1]; exact c2⟩, ?_⟩, rfl, rfl⟩
    dsimp only
    cases al
    · unfold tieList; rw [b1, c1]; rfl
    · rw [tieList_true (by rw [b1]; exact c2), b1]; simp

variable (G st)

/-- What the search knows after the mutually connected vertices `M` and the one-way dependent ones `D`. -/
def SelTrack (M D : List Nat) (s : Sel) : Prop :=
  (M = [] ∧ D = [] ∧ s = ⟨0, 0, -1, some (-1), []⟩) ∨
  (M = [] ∧ s.maxTwo = 0 ∧ (∃ k : Nat, s.maxOne = (k : Int) ∧ Tops (dependEdges G P st) D k) ∧
    TieTrack G st false (best (dependEdges G P st) D) s) ∨
  (s.maxOne = 2147483647 ∧ (∃ k : Nat, 0 < k ∧ s.maxTwo = (k : Int) ∧ Tops (mutualEdges G P st) M k) ∧
    TieTrack G st true (best (mutualEdges G P st) M) s)

theorem adj_ne_of_mutual {v : Nat} (h : 0 < mutualEdges G P st v) : G.adj v ≠ [] := by
  intro hc; unfold mutualEdges at h; rw [hc] at h; simp at h

theorem adj_ne_of_depend {v : Nat} (h : 0 < dependEdges G P st v) : G.adj v ≠ [] := by
  intro hc; unfold dependEdges at h; rw [hc] at h; simp at h

variable {G P st}

theorem SelTrack.mutual {M D : List Nat} {s : Sel} (h : SelTrack G P st M D s) (v : Nat) (hi : P.isolated v = false)
    (hv : 0 < mutualEdges G P st v) : SelTrack G P st (M ++ [v]) D (selStep G P st s v) := by
  have ha := adj_ne_of_mutual G P st hv
  have e : selStep G P st s v = selTwo G st (mutualEdges G P st v : Int) s v := by
    unfold selStep
    simp only [hi, Bool.false_eq_true, if_false, twoWay_spec]
    rw [if_pos (by omega)]
  rw [e]
  have hnew : s.maxTwo < mutualEdges G P st v → (∀ u ∈ M, mutualEdges G P st u ≤ s.maxTwo.toNat) → 0 ≤ s.maxTwo →
      SelTrack G P st (M ++ [v]) D (selTwo G st (mutualEdges G P st v : Int) s v) := by
    intro h1 h2 h0
    unfold selTwo
    rw [if_neg (by omega), if_pos (by omega)]
    obtain ⟨b1, b2⟩ := best_snoc_gt (f := mutualEdges G P st) (l := M) (m := s.maxTwo.toNat) (v := v) h2 (by omega)
    refine Or.inr (Or.inr ⟨rfl, ⟨_, hv, rfl, b2⟩, ?_⟩)
    rw [b1]
    exact TieTrack.fresh true v _ (connectivity_spec G st v ha) (by simp [front_spec]) rfl
  rcases h with ⟨rfl, rfl, rfl⟩ | ⟨rfl, h0, -, -⟩ | ⟨h1, ⟨k, hk, h2, h3⟩, h4⟩
  · exact hnew (by simpa using hv) (by simp) (by simp)
  · exact hnew (by rw [h0]; omega) (by simp) (by omega)
  · rcases lt_trichotomy (mutualEdges G P st v) k with hlt | heq | hgt
    · unfold selTwo
      rw [if_neg (by omega), if_neg (by omega)]
      obtain ⟨b1, b2⟩ := best_snoc_lt h3 hlt
      exact Or.inr (Or.inr ⟨h1, ⟨k, hk, h2, b2⟩, by rw [b1]; exact h4⟩)
    · unfold selTwo
      rw [if_pos (by omega)]
      obtain ⟨b1, b2⟩ := best_snoc_eq h3 heq
      obtain ⟨t1, t2, t3⟩ := h4.step v ha
      exact Or.inr (Or.inr ⟨t3.trans h1, ⟨k, hk, t2.trans h2, b2⟩, by rw [b1]; exact t1⟩)
    · exact hnew (by omega) (fun u hu => by have := h3.2 u hu; omega) (by omega)

theorem SelTrack.depend {M D : List Nat} {s : Sel} (h : SelTrack G P st M D s) (v : Nat) (hi : P.isolated v = false)
    (hm : mutualEdges G P st v = 0) (hv : 0 < dependEdges G P st v) (hd : (G.adj v).length < 2147483647) :
    SelTrack G P st M (D ++ [v]) (selStep G P st s v) := by
  have ha := adj_ne_of_depend G P st hv
  have hle : dependEdges G P st v ≤ (G.adj v).length := List.countP_le_length
  have h2w : selTwo G st 0 s v = s := by
    have : 0 ≤ s.maxTwo := by
      rcases h with ⟨-, -, rfl⟩ | ⟨-, h0, -⟩ | ⟨-, ⟨k, hk, h2, -⟩, -⟩
      · simp
      · omega
      · omega
    unfold selTwo
    rw [if_neg (by omega), if_neg (by omega)]
  have e : selStep G P st s v = selOne G st (dependEdges G P st v : Int) s v := by
    unfold selStep
    simp only [hi, Bool.false_eq_true, if_false, twoWay_spec, oneWay_spec, hm, Nat.cast_zero, h2w]
    rw [if_neg (by omega)]
  rw [e]
  have hne : ¬ ((dependEdges G P st v : Int) = 0) := by omega
  rcases h with ⟨rfl, rfl, rfl⟩ | ⟨rfl, h0, ⟨k, h1, h2⟩, h4⟩ | ⟨h1, h2, h4⟩
  · unfold selOne
    rw [if_neg hne, if_neg (by simp [admissible]), if_neg (by simp; omega), if_pos (by simpa using hv)]
    obtain ⟨b1, b2⟩ := best_single (f := dependEdges G P st) (v := v)
    refine Or.inr (Or.inl ⟨rfl, rfl, ⟨_, rfl, b2⟩, ?_⟩)
    rw [List.nil_append, b1]
    exact TieTrack.fresh false v _ (connectivity_spec G st v ha) (by simp [front_spec]) rfl
  · unfold selOne
    rw [if_neg hne, if_neg (by simp [admissible])]
    rcases lt_trichotomy (dependEdges G P st v) k with hlt | heq | hgt
    · rw [if_neg (by omega), if_neg (by omega)]
      obtain ⟨b1, b2⟩ := best_snoc_lt h2 hlt
      exact Or.inr (Or.inl ⟨rfl, h0, ⟨k, h1, b2⟩, by rw [b1]; exact h4⟩)
    · rw [if_pos (by omega)]
      obtain ⟨b1, b2⟩ := best_snoc_eq h2 heq
      obtain ⟨t1, t2, t3⟩ := h4.step v ha
      exact Or.inr (Or.inl ⟨rfl, t2.trans h0, ⟨k, t3.trans h1, b2⟩, by rw [b1]; exact t1⟩)
    · rw [if_neg (by omega), if_pos (by omega)]
      obtain ⟨b1, b2⟩ := best_snoc_gt h2.2 hgt
      refine Or.inr (Or.inl ⟨rfl, h0, ⟨_, rfl, b2⟩, ?_⟩)
      rw [b1]
      exact TieTrack.fresh false v _ (connectivity_spec G st v ha) (by simp [front_spec]) rfl
  · unfold selOne
    rw [if_neg hne, if_neg (by simp [admissible]), if_neg (by omega), if_neg (by omega)]
    exact Or.inr (Or.inr ⟨h1, h2, h4⟩)

theorem SelTrack.skip {M D : List Nat} {s : Sel} (h : SelTrack G P st M D s) (v : Nat)
    (hv : P.isolated v = true ∨ (mutualEdges G P st v = 0 ∧ dependEdges G P st v = 0)) : selStep G P st s v = s := by
  have h0 : 0 ≤ s.maxTwo := by
    rcases h with ⟨-, -, rfl⟩ | ⟨-, h0, -⟩ | ⟨-, ⟨k, hk, h2, -⟩, -⟩
    · simp
    · omega
    · omega
  unfold selStep
  by_cases hi : P.isolated v = true
  · rw [if_pos hi]
  · rcases hv with hv | ⟨h1, h2⟩
    · exact absurd hv hi
    · have : selTwo G st 0 s v = s := by
        unfold selTwo
        rw [if_neg (by omega), if_neg (by omega)]
      simp only [hi, if_false, twoWay_spec, oneWay_spec, h1, h2, Nat.cast_zero, this, selOne, if_true]
      rw [if_neg (by simp), if_neg (by omega)]

theorem selTrack_fold : ∀ (r M D : List Nat) (s : Sel), SelTrack G P st M D s → (∀ v ∈ r, (G.adj v).length < 2147483647) →
    SelTrack G P st (M ++ r.filter fun v => decide (P.isolated v = false ∧ 0 < mutualEdges G P st v))
      (D ++ r.filter fun v => decide (P.isolated v = false ∧ mutualEdges G P st v = 0 ∧ 0 < dependEdges G P st v))
      (r.foldl (selStep G P st) s)
  | [], M, D, s, h, _ => by simpa using h
  | v :: r, M, D, s, h, hd => by
    have hr : ∀ w ∈ r, (G.adj w).length < 2147483647 := fun w hw => hd w (by simp [hw])
    rw [List.foldl_cons, List.filter_cons, List.filter_cons]
    by_cases h1 : P.isolated v = false ∧ 0 < mutualEdges G P st v
    · rw [if_pos (by simpa using h1), if_neg (by simp; intro _ h; omega)]
      have := selTrack_fold r (M ++ [v]) D _ (h.mutual v h1.1 h1.2) hr
      rwa [List.append_assoc] at this
    · by_cases h2 : P.isolated v = false ∧ mutualEdges G P st v = 0 ∧ 0 < dependEdges G P st v
      · rw [if_neg (by simpa using h1), if_pos (by simpa using h2)]
        have := selTrack_fold r M (D ++ [v]) _ (h.depend v h2.1 h2.2.1 h2.2.2 (hd v (by simp))) hr
        rwa [List.append_assoc] at this
      · rw [if_neg (by simpa using h1), if_neg (by simpa using h2), h.skip v ?_]
        · exact selTrack_fold r M D s h hr
        · cases hi : P.isolated v
          · right
            rw [hi] at h1 h2
            simp only [true_and] at h1 h2
            omega
          · exact Or.inl rfl

theorem candidates_spec (hd : ∀ v ∈ st.front, (G.adj v).length < 2147483647) : candidates G P st = wanted G P st := by
  have := selTrack_fold (G := G) (P := P) (st := st) st.front [] [] ⟨0, 0, -1, some (-1), []⟩ (Or.inl ⟨rfl, rfl, rfl⟩) hd
  rw [List.nil_append, List.nil_append] at this
  change SelTrack G P st (mutualFront G P st) (dependFront G P st) _ at this
  unfold candidates wanted
  rcases this with ⟨h1, h2, h3⟩ | ⟨h1, -, -, h4⟩ | ⟨-, ⟨k, -, -, h3⟩, h4⟩
  · rw [h3, if_neg (by simpa using h1), h2]; rfl
  · rw [if_neg (by simpa using h1), h4.cands]; rfl
  · rw [if_pos, h4.cands]; rfl
    obtain ⟨⟨u, hu, -⟩, -⟩ := h3
    intro hc; rw [hc] at hu; cases hu

end Amg
end Istl
