import Verif.Spec.Selection
import Mathlib.Tactic.Linarith
import Mathlib.Tactic.FieldSimp
import Mathlib.Tactic.Ring
import Mathlib.Tactic.Push
import Mathlib.Algebra.Order.Field.Rat

/-! # Candidate selection -/

namespace Istl
namespace Amg

/-- `m` is the maximum of `f` on `l`. -/
def Tops {α : Type} [LinearOrder α] (f : Nat → α) (l : List Nat) (m : α) : Prop := (∃ u ∈ l, f u = m) ∧ ∀ u ∈ l, f u ≤ m

section
variable {α : Type} [LinearOrder α] {f : Nat → α} {l : List Nat} {m : α} {v : Nat}

theorem best_eq (h : Tops f l m) : best f l = l.filter fun v => decide (f v = m) := by
  unfold best
  apply List.filter_congr
  intro v hv
  obtain ⟨⟨u, hu, e⟩, h2⟩ := h
  simp only [decide_eq_decide]
  constructor
  · intro h; exact le_antisymm (h2 v hv) (e ▸ h u hu)
  · intro h w hw; rw [h]; exact h2 w hw

theorem best_snoc_lt (h : Tops f l m) (hv : f v < m) : best f (l ++ [v]) = best f l ∧ Tops f (l ++ [v]) m := by
  have h' : Tops f (l ++ [v]) m := by
    obtain ⟨⟨u, hu, e⟩, h2⟩ := h
    refine ⟨⟨u, by simp [hu], e⟩, fun w hw => ?_⟩
    rcases List.mem_append.mp hw with hw | hw
    · exact h2 w hw
    · rw [List.mem_singleton.mp hw]; exact hv.le
  refine ⟨?_, h'⟩
  rw [best_eq h', best_eq h, List.filter_append]
  simp [hv.ne]

theorem best_snoc_eq (h : Tops f l m) (hv : f v = m) : best f (l ++ [v]) = best f l ++ [v] ∧ Tops f (l ++ [v]) m := by
  have h' : Tops f (l ++ [v]) m := by
    obtain ⟨⟨u, hu, e⟩, h2⟩ := h
    refine ⟨⟨u, by simp [hu], e⟩, fun w hw => ?_⟩
    rcases List.mem_append.mp hw with hw | hw
    · exact h2 w hw
    · rw [List.mem_singleton.mp hw]; exact hv.le
  refine ⟨?_, h'⟩
  rw [best_eq h', best_eq h, List.filter_append]
  simp [hv]

theorem best_snoc_gt (h : ∀ u ∈ l, f u ≤ m) (hv : m < f v) : best f (l ++ [v]) = [v] ∧ Tops f (l ++ [v]) (f v) := by
  have h' : Tops f (l ++ [v]) (f v) := by
    refine ⟨⟨v, by simp, rfl⟩, fun w hw => ?_⟩
    rcases List.mem_append.mp hw with hw | hw
    · exact (h w hw).trans hv.le
    · rw [List.mem_singleton.mp hw]
  refine ⟨?_, h'⟩
  rw [best_eq h', List.filter_append, List.filter_eq_nil_iff.mpr]
  · simp
  · intro w hw
    simpa using ((h w hw).trans_lt hv).ne

theorem best_single : best f [v] = [v] ∧ Tops f [v] (f v) := by
  refine ⟨by simp [best], ⟨⟨v, by simp, rfl⟩, by simp⟩⟩

theorem Tops.ne_nil (h : Tops f l m) : best f l ≠ [] := by
  rw [best_eq h]
  obtain ⟨⟨u, hu, e⟩, _⟩ := h
  intro hc
  have := List.filter_eq_nil_iff.mp hc u hu
  simp [e] at this

end

/-! ## counts -/

variable (G : Graph) (P : Props) (st : AgSt)

theorem twoWay_spec (v : Nat) : twoWay G P st v st.cur = mutualEdges G P st v := by
  unfold twoWay countEdges mutualEdges AgSt.cur
  rw [List.countP_eq_length_filter]
  congr 1
  apply List.filter_congr
  intro t _
  by_cases h1 : st.agg t = .id st.id.toNat <;> cases P.dep v t <;> cases P.infl v t <;> simp [h1]

theorem oneWay_spec (v : Nat) : oneWay G P st v st.cur = dependEdges G P st v := by
  unfold oneWay countEdges dependEdges AgSt.cur
  rw [List.countP_eq_length_filter]
  congr 1
  apply List.filter_congr
  intro t _
  by_cases h1 : st.agg t = .id st.id.toNat <;> cases P.dep v t <;> cases P.infl v t <;> simp [h1]

theorem front_spec (v : Nat) : noFrontNeighbours G st v = frontEdges G st v := by
  unfold noFrontNeighbours countEdges frontEdges
  rw [List.countP_eq_length_filter]

theorem sum_known (l : List Nat) : (l.map fun t => if st.agg t ∉ st.conn ∨ st.agg t = .unagg then 1 else 2).sum =
    l.length + l.countP fun t => decide (st.agg t ≠ .unagg ∧ st.agg t ∈ st.conn) := by
  induction l with
  | nil => rfl
  | cons t l ih =>
    rw [List.map_cons, List.sum_cons, ih, List.countP_cons, List.length_cons]
    by_cases h : st.agg t ∉ st.conn ∨ st.agg t = .unagg
    · rw [if_pos h, if_neg (by simpa using by tauto)]; omega
    · rw [if_neg h, if_pos (by simpa using by tauto)]; omega

theorem connectivity_spec (v : Nat) (h : G.adj v ≠ []) : connectivity G st v = some (familiarity G st v) := by
  have hl : (G.adj v).length ≠ 0 := fun hc => h (List.length_eq_zero_iff.mp hc)
  have hl' : ((G.adj v).length : ℚ) ≠ 0 := by exact_mod_cast hl
  unfold connectivity familiarity knownEdges
  rw [if_neg hl, sum_known]
  congr 1
  push_cast
  field_simp

theorem connectivity_none (v : Nat) (h : G.adj v = []) : connectivity G st v = none := by
  unfold connectivity
  rw [if_pos (by rw [h]; rfl)]

theorem familiarity_pos (v : Nat) : (1 : ℚ) ≤ familiarity G st v := by
  unfold familiarity
  have : (0 : ℚ) ≤ (knownEdges G st v : ℚ) / ((G.adj v).length : ℚ) := by positivity
  linarith

theorem neighbours_spec (v : Nat) (a : Agg) : neighbours G P st v a =
    (coupling G P (fun t => st.agg t = .unagg) v, coupling G P (fun t => st.agg t = a) v) := by
  have key : ∀ (b : Agg) (l : List Nat), ((l.filter fun t => decide (st.agg t = b)).map
      (fun t => (if P.dep v t then 1 else 0) + (if P.infl v t then 1 else 0))).sum =
      (l.countP fun t => decide (st.agg t = b ∧ P.dep v t = true)) + l.countP fun t => decide (st.agg t = b ∧ P.infl v t = true) := by
    intro b l
    induction l with
    | nil => rfl
    | cons t l ih =>
      rw [List.countP_cons, List.countP_cons, List.filter_cons]
      by_cases h : st.agg t = b
      · rw [if_pos (by simpa using h), List.map_cons, List.sum_cons, ih]
        cases P.dep v t <;> cases P.infl v t <;> simp [h] <;> omega
      · rw [if_neg (by simpa using h), ih]
        simp [h]
  unfold neighbours coupling
  rw [← key, ← key]

/-! ## isolated aggregates -/

/-- What the search has found after the vertices `l`. -/
def IsoTrack (l : List Nat) (s : IsoSel) : Prop :=
  (l = [] ∧ s = ⟨some (-1), 0, none⟩) ∨ ∃ q, s.maxCon = some q ∧ Tops (familiarity G st) l q ∧
    Tops (frontEdges G st) (best (familiarity G st) l) s.maxFront ∧
    s.cand = (best (frontEdges G st) (best (familiarity G st) l)).getLast?

theorem isoTrack_step (c : Crit) {l : List Nat} {s : IsoSel} (h : IsoTrack G st l s) (v : Nat) (hv : G.adj v ≠ []) :
    IsoTrack G st (l ++ [v]) (isoSelStep G c st [] s v) := by
  have e : isoSelStep G c st [] s v = if conEq (some (familiarity G st v)) s.maxCon then
      (if frontEdges G st v ≥ s.maxFront then { s with maxFront := frontEdges G st v, cand := some v } else s)
    else if conGt (some (familiarity G st v)) s.maxCon then ⟨some (familiarity G st v), frontEdges G st v, some v⟩ else s := by
    unfold isoSelStep
    rw [if_neg (by simp [distance]), if_neg (by simp)]
    simp only [connectivity_spec G st v hv, front_spec]
  have hnew : ∀ q, s.maxCon = some q → (∀ u ∈ l, familiarity G st u ≤ q) → q < familiarity G st v →
      IsoTrack G st (l ++ [v]) (isoSelStep G c st [] s v) := by
    intro q h1 h2 hq
    rw [e, h1, conEq, conGt, if_neg (by simpa using hq.ne'), if_pos (by simpa using hq)]
    obtain ⟨b1, b2⟩ := best_snoc_gt h2 hq
    refine Or.inr ⟨_, rfl, b2, ?_, ?_⟩
    · rw [b1]; exact best_single.2
    · rw [b1, best_single.1]; rfl
  rcases h with ⟨rfl, rfl⟩ | ⟨q, h1, h2, h3, h4⟩
  · exact hnew (-1) rfl (by simp) (by linarith [familiarity_pos G st v])
  · rcases lt_trichotomy (familiarity G st v) q with hq | hq | hq
    · rw [e, h1, conEq, conGt, if_neg (by simpa using hq.ne), if_neg (by simpa using hq.le)]
      obtain ⟨b1, b2⟩ := best_snoc_lt h2 hq
      exact Or.inr ⟨q, h1, b2, by rw [b1]; exact h3, by rw [b1]; exact h4⟩
    · rw [e, h1, conEq, if_pos (by simpa using hq)]
      obtain ⟨b1, b2⟩ := best_snoc_eq h2 hq
      rcases lt_trichotomy (frontEdges G st v) s.maxFront with hf | hf | hf
      · rw [if_neg (by omega)]
        obtain ⟨c1, c2⟩ := best_snoc_lt h3 hf
        exact Or.inr ⟨q, h1, b2, by rw [b1]; exact c2, by rw [b1, c1]; exact h4⟩
      · rw [if_pos (by omega)]
        obtain ⟨c1, c2⟩ := best_snoc_eq h3 hf
        refine Or.inr ⟨q, rfl, b2, by rw [b1]; rw [hf]; exact c2, ?_⟩
        rw [b1, c1]; simp
      · rw [if_pos (by omega)]
        obtain ⟨c1, c2⟩ := best_snoc_gt h3.2 hf
        refine Or.inr ⟨q, rfl, b2, by rw [b1]; exact c2, ?_⟩
        rw [b1, c1]; simp
    · exact hnew q h1 h2.2 hq

theorem isoSelStep_none (c : Crit) (s : IsoSel) (v : Nat) (hv : G.adj v = []) : isoSelStep G c st [] s v = s := by
  unfold isoSelStep
  rw [if_neg (by simp [distance]), if_neg (by simp)]
  simp only [connectivity_none G st v hv]
  cases s.maxCon <;> simp [conEq, conGt]

theorem isoTrack_fold (c : Crit) : ∀ (r l : List Nat) (s : IsoSel), IsoTrack G st l s →
    IsoTrack G st (l ++ r.filter fun v => decide (G.adj v ≠ [])) (r.foldl (isoSelStep G c st []) s)
  | [], l, s, h => by simpa using h
  | v :: r, l, s, h => by
    rw [List.foldl_cons, List.filter_cons]
    by_cases hv : G.adj v = []
    · rw [if_neg (by simpa using hv), isoSelStep_none G st c s v hv]
      exact isoTrack_fold c r l s h
    · rw [if_pos (by simpa using hv)]
      have := isoTrack_fold c r (l ++ [v]) _ (isoTrack_step G st c h v hv)
      rwa [List.append_assoc] at this

theorem isoCandidate_spec (c : Crit) : isoCandidate G c st [] = wantedIsolated G st := by
  have := isoTrack_fold G st c st.front [] ⟨some (-1), 0, none⟩ (Or.inl ⟨rfl, rfl⟩)
  rw [List.nil_append] at this
  unfold isoCandidate wantedIsolated
  rcases this with ⟨h1, h2⟩ | ⟨q, -, -, -, h⟩
  · rw [h1, h2]; rfl
  · exact h

end Amg
end Istl
