import Verif.Lemmas.ParHierarchy
import Verif.Spec.ParAmg

/-! # Lemmas on the matrix hierarchy on several processes: all levels -/

namespace Istl
namespace Amg
open Par Finset
variable {B : Type}

/-- What is known of level `l` and the next one. -/
structure LevelStep [AddCommGroup B] (c : HierEnv B) (level : Nat) (A A' : DistLevel B) (m : Nat → Nat → Agg) (G : Finset Nat) (F : Nat → Option Nat) : Prop where
  published : Published c.P A.pis A'.pis F m
  own : Coarsening c.P A.pis A.sz (fun p => (c.aggr (level == 0) p (A.pis p) (A.mat p)).1) A'.pis A'.sz F
  complete : ∀ p, p < c.P → ∀ e ∈ A'.pis p, e.attr ≠ .copy → ∀ g ∈ G, F g = some e.g → ∃ f ∈ A.pis p, f.g = g ∧ f.attr ≠ .copy
  card : c.noAggregates level A = (coarseSet G F).card

theorem levelStep_of [AddCommGroup B] {c : HierEnv B} (ha : AggrOk c.aggr) (o1 : AllArrive c.P c.order) (o2 : AllArrive c.P c.order')
    (o3 : AllArrive c.P c.order'') {l : Nat} {A A' : DistLevel B} {G : Finset Nat} {M : Nat → Nat → B} (hA : Holding c.P A G M)
    {m' : Nat → Nat → Agg} (hr : CoarsenRun c l A A' m') :
    ∃ F, Holding c.P A' (coarseSet G F) (coarseMat G F M) ∧ LevelStep c l A A' m' G F := by
  obtain ⟨F, h1, h2, h3⟩ := step_spec ha o1 o2 o3 hA hr
  refine ⟨F, h1, h2, h3, ?_, noAggregates_card ha hA h3⟩
  obtain ⟨gr, s, R, ov, rows, rs, r1, -⟩ := hr
  obtain ⟨hD, hO, ⟨S, hS⟩, hsy⟩ := hA
  intro p hp e he hc
  exact overlap_rows hD h3 hO.wf hO.rows r1 (fun p hp => (ha _ p _ _ _ (hO.wf p hp) (r1 p hp) (hD.ok p hp) (fun e he => by rw [hO.rows p hp]; exact hD.bounded p hp e he)
      (fun v hv => hD.covered p hp v (by rw [← hO.rows p hp]; exact hv)) (hsy p hp)).1) hS hp he hc

/-- All levels of a run. -/
theorem run_spec [AddCommGroup B] {c : HierEnv B} (ha : AggrOk c.aggr) (o1 : AllArrive c.P c.order) (o2 : AllArrive c.P c.order')
    (o3 : AllArrive c.P c.order'') {todo level u : Nat} {A last : DistLevel B} {lv : List (DistLevel B × (Nat → Nat → Agg))}
    (hr : HierRun c todo level A u lv last) : ∀ {𝒢 : Finset Nat} {M : Nat → Nat → B}, Holding c.P A 𝒢 M →
    ∃ (G : Nat → Finset Nat) (Ms : Nat → Nat → Nat → B) (F : Nat → Nat → Option Nat),
      G 0 = 𝒢 ∧ Ms 0 = M ∧ levelAt lv last 0 = A ∧ lv.length ≤ todo ∧
      (∀ l, l < lv.length → G (l + 1) = coarseSet (G l) (F l) ∧ Ms (l + 1) = coarseMat (G l) (F l) (Ms l)) ∧
      (∀ l, l ≤ lv.length → Holding c.P (levelAt lv last l) (G l) (Ms l)) ∧
      (∀ l, l < lv.length → LevelStep c (level + l) (levelAt lv last l) (levelAt lv last (l + 1)) (mapAt lv l) (G l) (F l)) ∧
      (∀ l, l < lv.length → c.crit.coarsenTarget < ((if l = 0 then u else (G l).card : Nat) : Int) ∧
        ¬ rateBreakdown c.crit (if l = 0 then u else (G l).card) (G (l + 1)).card) ∧
      (lv.length = todo ∨ ((if lv.length = 0 then u else (G lv.length).card : Nat) : Int) ≤ c.crit.coarsenTarget ∨
        rateBreakdown c.crit (if lv.length = 0 then u else (G lv.length).card) (c.noAggregates (level + lv.length) last)) := by
  induction hr with
  | levels level A u =>
    intro 𝒢 M h
    exact ⟨fun _ => 𝒢, fun _ => M, fun _ _ => none, rfl, rfl, rfl, le_refl _, fun l hl => absurd hl (by simp), fun l _ => h,
      fun l hl => absurd hl (by simp), fun l hl => absurd hl (by simp), .inl rfl⟩
  | small todo level A u hs =>
    intro 𝒢 M h
    exact ⟨fun _ => 𝒢, fun _ => M, fun _ _ => none, rfl, rfl, rfl, Nat.zero_le _, fun l hl => absurd hl (by simp), fun l _ => h,
      fun l hl => absurd hl (by simp), fun l hl => absurd hl (by simp), .inr (.inl hs)⟩
  | breakdown todo level A u hs hb =>
    intro 𝒢 M h
    exact ⟨fun _ => 𝒢, fun _ => M, fun _ _ => none, rfl, rfl, rfl, Nat.zero_le _, fun l hl => absurd hl (by simp), fun l _ => h,
      fun l hl => absurd hl (by simp), fun l hl => absurd hl (by simp), .inr (.inr hb)⟩
  | coarsen todo level A u A' agg' lv last hs hb hc hn ih =>
    intro 𝒢 M h
    obtain ⟨F0, h1, h2⟩ := levelStep_of ha o1 o2 o3 h hc
    obtain ⟨G, Ms, F, g0, m0, l0, q1, q2, q3, q4, q5, q6⟩ := ih h1
    have hcard : ∀ l, (if l = 0 then c.noAggregates level A else (G l).card) = (G l).card := by
      intro l
      by_cases e : l = 0
      · rw [if_pos e, e, g0, h2.card]
      · rw [if_neg e]
    refine ⟨fun l => match l with | 0 => 𝒢 | l + 1 => G l, fun l => match l with | 0 => M | l + 1 => Ms l,
      fun l => match l with | 0 => F0 | l + 1 => F l, rfl, rfl, rfl, by simpa using q1, ?_, ?_, ?_, ?_, ?_⟩
    · intro l hl
      cases l with
      | zero => exact ⟨g0, m0⟩
      | succ l => exact q2 l (by simpa using hl)
    · intro l hl
      cases l with
      | zero => exact h
      | succ l => exact q3 l (by simpa using hl)
    · intro l hl
      cases l with
      | zero =>
        show LevelStep c (level + 0) A (levelAt lv last 0) agg' 𝒢 F0
        rw [l0]; exact h2
      | succ l =>
        have := q4 l (by simpa using hl)
        rw [show level + 1 + l = level + (l + 1) by omega] at this
        exact this
    · intro l hl
      cases l with
      | zero =>
        refine ⟨by rw [if_pos rfl]; exact not_le.mp hs, ?_⟩
        rw [if_pos rfl]
        show ¬ rateBreakdown c.crit u (G 0).card
        rw [g0, ← h2.card]; exact hb
      | succ l =>
        have := q5 l (by simpa using hl)
        rw [hcard] at this
        rw [if_neg (Nat.succ_ne_zero l)]
        exact this
    · rw [hcard] at q6
      rw [if_neg (by simp)]
      rcases q6 with h | h | h
      · left; simp [h]
      · exact .inr (.inl h)
      · refine .inr (.inr ?_)
        rw [show level + 1 + lv.length = level + (lv.length + 1) by omega] at h
        exact h

/-- A run exists. -/
theorem run_exists [AddCommGroup B] {c : HierEnv B} (ha : AggrOk c.aggr) (o1 : AllArrive c.P c.order) (o2 : AllArrive c.P c.order')
    (o3 : AllArrive c.P c.order'') : ∀ (todo level u : Nat) {A : DistLevel B} {𝒢 : Finset Nat} {M : Nat → Nat → B}, Holding c.P A 𝒢 M →
    ∃ lv last, HierRun c todo level A u lv last
  | 0, level, u, A, _, _, _ => ⟨[], A, .levels level A u⟩
  | todo + 1, level, u, A, _, _, h => by
    by_cases hs : (u : Int) ≤ c.crit.coarsenTarget
    · exact ⟨[], A, .small todo level A u hs⟩
    by_cases hb : rateBreakdown c.crit u (c.noAggregates level A)
    · exact ⟨[], A, .breakdown todo level A u hs hb⟩
    obtain ⟨A', m', hr⟩ := step_exists ha o1 o2 o3 level h
    obtain ⟨F, h1, -⟩ := levelStep_of ha o1 o2 o3 h hr
    obtain ⟨lv, last, hn⟩ := run_exists ha o1 o2 o3 todo (level + 1) (c.noAggregates level A) h1
    exact ⟨(A, m') :: lv, last, .coarsen todo level A u A' m' lv last hs hb hr hn⟩

/-- Every choice of local smoothers has a global counterpart. -/
theorem smoother_exists {V : Type} [AddCommGroup V] {P : Nat} {pis : Nat → PIS} {sz : Nat → Nat} {G : Finset Nat} (hD : Decomp P pis sz G)
    (prec : Nat → (Nat → V) → (Nat → V) → (Nat → V)) : ∃ W, SmootherOf P pis prec W := by
  classical
  refine ⟨fun D g => if h : ∃ pe : Nat × Idx, pe.1 < P ∧ pe.2 ∈ pis pe.1 ∧ pe.2.attr = .owner ∧ pe.2.g = g then
    prec h.choose.1 (fun _ => 0) (localView pis D h.choose.1) h.choose.2.loc else 0, ?_⟩
  intro D p hp e he ho
  have h : ∃ pe : Nat × Idx, pe.1 < P ∧ pe.2 ∈ pis pe.1 ∧ pe.2.attr = .owner ∧ pe.2.g = e.g := ⟨(p, e), hp, he, ho, rfl⟩
  dsimp only
  rw [dif_pos h]
  obtain ⟨h1, h2, h3, h4⟩ := h.choose_spec
  have hpe : h.choose.1 = p := hD.unique _ p h1 hp _ h2 e he h3 ho h4
  have hee : h.choose.2 = e := by
    rw [hpe] at h2
    exact idx_eq_of_g (hD.ok p hp) h2 he h4
  rw [hpe, hee]

end Amg
end Istl
