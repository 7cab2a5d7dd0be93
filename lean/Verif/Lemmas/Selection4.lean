import Verif.Lemmas.Selection3

/-! # The whole aggregation -/

namespace Istl
namespace Amg

variable {G : Graph}

theorem unmark_cleared (st : AgSt) : Cleared st (unmarkFront st) := by
  refine ⟨rfl, rfl, rfl, fun t => ?_⟩
  change (st.front.foldl (fun m v => upd m v false) st.flag) t = true ↔ _
  rw [unmark_flag]
  by_cases h : t ∈ st.front <;> simp [h]

theorem seed_seeded (hG : G.WF) (st : AgSt) (v a : Nat) (hid : st.id + 1 = (a : Int)) (hvn : v < G.n) (hun : st.agg v = .unagg)
    (hf : st.front = []) (hflag : ∀ w, st.flag w = true → st.agg w ≠ .unagg) :
    ∃ s1, seed G v st = .ok s1 ∧ GInv G st.agg a v s1 ∧ Marked G s1 ∧ Seeded G v st s1 := by
  obtain ⟨s1, e1, h1, ev⟩ := seed_inv hG st v a hid hvn hun hf hflag
  have hm := seed_marked e1
  refine ⟨s1, e1, h1, hm, ?_, h1.trueFront hm⟩
  unfold seed at e1
  obtain ⟨i1, i2, i3, i4, i5, i6⟩ := add1_full e1
  refine ⟨i1, fun w => ?_, fun _ => h1.1.asc, i3, ?_, fun _ => i6 (by simp [connInsert]), fun t => ?_⟩
  · rw [ev]; simp
  · intro x
    rw [i4]
    simp [connInsert]
  · rw [i5]; simp

theorem mergeNeighbour_some (P : Props) {st : AgSt} {v t : Nat} (hv : P.isolated v = false)
    (h : mergeNeighbour G P st v = some t) :
    ∃ l r, G.adj v = l ++ t :: r ∧ (∀ u ∈ l, ¬ Joinable P st v u) ∧ Joinable P st v t := by
  obtain ⟨h1, l, r, e, h2⟩ := List.find?_eq_some_iff_append.mp h
  have key : ∀ u, (decide (st.agg u ≠ .unagg) && (decide (P.isolated u = P.isolated v) &&
    (P.isolated v || ((P.dep v u || P.infl v u) && admissible v)))) = true ↔ Joinable P st v u := by
    intro u
    unfold Joinable
    simp [hv, admissible]
  refine ⟨l, r, e, fun u hu hc => ?_, (key t).mp h1⟩
  have := h2 u hu
  rw [(key u).mpr hc] at this
  cases this

theorem mergeNeighbour_none (P : Props) {st : AgSt} {v : Nat} (hv : P.isolated v = false)
    (h : mergeNeighbour G P st v = none) : ¬ ∃ t ∈ G.adj v, Joinable P st v t := by
  rintro ⟨t, ht, h1, h2, h3⟩
  have := List.find?_eq_none.mp h t ht
  simp [hv, admissible, h1, h2] at this
  rcases h3 with h3 | h3 <;> simp [h3] at this

theorem finish_settles (P : Props) (c : Crit) (sd : Nat) (hsd : P.isolated sd = false) (b : BuildSt) :
    Settles G P c sd b.st (finish G P c sd b).st := by
  unfold finish
  by_cases h : b.st.verts.length = 1 ∧ c.maxSize > 1
  · rw [if_pos h, if_pos hsd]
    cases hm : mergeNeighbour G P b.st sd with
    | some t =>
      obtain ⟨l, r, e, h1, h2⟩ := mergeNeighbour_some P hsd hm
      exact .join h.1 h.2 hsd e h1 h2
    | none => exact .keep fun hc => mergeNeighbour_none P hsd hm hc.2.2.2
  · rw [if_neg h, if_neg (by simp [hsd])]
    exact .keep fun hc => h ⟨hc.1, hc.2.1⟩

theorem finish_isolated (P : Props) (c : Crit) (sd : Nat) (hsd : P.isolated sd = true) (b : BuildSt) :
    (finish G P c sd b).st = b.st := by
  unfold finish
  by_cases h : b.st.verts.length = 1 ∧ c.maxSize > 1
  · rw [if_pos h, if_neg (by simp [hsd])]
  · rw [if_neg h, if_pos hsd]

theorem rounding_isolated (P : Props) (c : Crit) (sd fuel : Nat) (st st' : AgSt) (hsd : P.isolated sd = true)
    (e : rounding G P c sd fuel st = some st') : st' = st := by
  cases fuel with
  | zero => cases e
  | succ fuel =>
    unfold rounding at e
    rw [if_neg (by simp [hsd])] at e
    cases e; rfl

theorem buildSeed_aggregation (hG : G.WF) (P : Props) (c : Crit) (hc : c.minSize ≤ c.maxSize) (hdist : 0 < c.maxDistance)
    (hdeg : ∀ v, v < G.n → (G.adj v).length < 2147483647) (fuel i : Nat) (hi : i < G.n) (b b' : BuildSt)
    (h : BI G P c i b) (hun : b.st.agg i = .unagg) (ha : Aggregation G P c i b.st) (e : buildSeed G P c fuel b i = some (.ok b')) :
    Aggregation G P c (i + 1) b'.st := by
  have hfl : ∀ w, (unmarkFront b.st).flag w = true → (unmarkFront b.st).agg w ≠ .unagg := by
    intro w hw hcon
    have hw' : (b.st.front.foldl (fun m v => upd m v false) b.st.flag) w = true := hw
    rw [unmark_flag] at hw'
    by_cases hm : w ∈ b.st.front
    · rw [if_pos hm] at hw'; cases hw'
    · rw [if_neg hm] at hw'
      exact hm (h.flags w hw' hcon)
  have hcl := unmark_cleared b.st
  unfold buildSeed at e
  dsimp only at e
  by_cases hex : P.excluded i = true
  · rw [if_pos hex] at e
    cases e
    exact .skipped ha hun (Or.inl hex) hcl
  rw [if_neg hex] at e
  by_cases hsk : P.isolated i = true ∧ c.skipIsolated = true
  · rw [if_pos hsk] at e
    cases e
    exact .skipped ha hun (Or.inr hsk) hcl
  rw [if_neg hsk] at e
  obtain ⟨s1, e1, g1, m1, sd1⟩ := seed_seeded hG (unmarkFront b.st) i (b.con + b.iso) h.idk hi hun rfl hfl
  unfold growFrom at e
  rw [e1] at e
  dsimp only at e
  by_cases hiso : P.isolated i = true
  · rw [if_pos hiso] at e
    cases hg : growIso G c (nonisoNeighbours i) fuel s1 with
    | none => rw [hg] at e; cases e
    | some r =>
      rw [hg] at e
      cases r with
      | throw _ => cases e
      | ub => cases e
      | ok s2 =>
        dsimp only at e
        cases hr : rounding G P c i fuel s2 with
        | none => rw [hr] at e; cases e
        | some s3 =>
          rw [hr] at e
          cases e
          obtain rfl := rounding_isolated P c i fuel s2 s3 hiso hr
          rw [finish_isolated P c i hiso]
          obtain ⟨q, -, -⟩ := growIso_spec hG c fuel s1 s3 g1 m1 hg
          exact .isolated ha hun (by simpa using hex) hiso (by simpa [hiso] using hsk) hcl sd1 q
  · rw [if_neg hiso] at e
    have hni : P.isolated i = false := by simpa using hiso
    cases hg : grow G P c i fuel 0 s1 with
    | none => rw [hg] at e; cases e
    | some s2 =>
      rw [hg] at e
      simp only [Option.map_some] at e
      cases hr : rounding G P c i fuel s2 with
      | none => rw [hr] at e; cases e
      | some s3 =>
        rw [hr] at e
        cases e
        obtain ⟨q1, g2, m2⟩ := grow_spec hG P c hc hdist hdeg fuel 0 s1 s2 rfl g1 m1 hg
        obtain ⟨q2, -, -⟩ := rounding_spec hG P c hni fuel s2 s3 g2 m2 hr
        exact .grown ha hun (by simpa using hex) hni hcl sd1 q1 q2 (finish_settles P c i hni { b with st := s3 })

theorem buildLoop_aggregation (hG : G.WF) (hsym : ∀ u t, u < G.n → t ∈ G.adj u → u ∈ G.adj t) (hloop : ∀ u, u < G.n → u ∉ G.adj u)
    (P : Props) (c : Crit) (hc : c.minSize ≤ c.maxSize) (hdist : 0 < c.maxDistance)
    (hdeg : ∀ v, v < G.n → (G.adj v).length < 2147483647) (fuel : Nat) (hf : G.n + 1 ≤ fuel) : ∀ (len i : Nat) (b : BuildSt),
    i + len = G.n → BI G P c i b → Aggregation G P c i b.st →
    ∃ b', buildLoop G P c fuel (List.range' i len) b = some (.ok b') ∧ Aggregation G P c G.n b'.st
  | 0, i, b, hi, h, ha => by
    obtain rfl : i = G.n := by omega
    exact ⟨b, rfl, ha⟩
  | len + 1, i, b, hi, h, ha => by
    rw [List.range'_succ]
    unfold buildLoop
    by_cases hun : b.st.agg i ≠ .unagg
    · rw [if_pos hun]
      exact buildLoop_aggregation hG hsym hloop P c hc hdist hdeg fuel hf len (i + 1) b (by omega)
        ⟨h.ai.skip hun, h.idk, h.flags, h.maxA, h.hist.done hun⟩ (.taken ha hun)
    · rw [if_neg hun]
      push Not at hun
      obtain ⟨b1, e1, h1⟩ := buildSeed_inv hG hsym hloop P c hc fuel hf i (by omega) b h hun
      rw [e1]
      exact buildLoop_aggregation hG hsym hloop P c hc hdist hdeg fuel hf len (i + 1) b1 (by omega) h1
        (buildSeed_aggregation hG P c hc hdist hdeg fuel i (by omega) b b1 h hun ha e1)

theorem build_aggregation (hG : G.WF) (hsym : ∀ u t, u < G.n → t ∈ G.adj u → u ∈ G.adj t) (hloop : ∀ u, u < G.n → u ∉ G.adj u)
    (P : Props) (c : Crit) (hc : c.minSize ≤ c.maxSize) (hdist : 0 < c.maxDistance)
    (hdeg : ∀ v, v < G.n → (G.adj v).length < 2147483647) (fuel : Nat) (hf : G.n + 1 ≤ fuel) :
    ∃ b, buildAggregates G P c fuel = some (.ok b) ∧ Aggregation G P c G.n b.st := by
  unfold buildAggregates
  rw [List.range_eq_range']
  apply buildLoop_aggregation hG hsym hloop P c hc hdist hdeg fuel hf G.n 0 _ (by omega) _ .start
  refine ⟨⟨by intro v hv; omega, by intros; rfl, ?_, by intro x hx; simp at hx, by simp [numBelow]⟩, by simp, ?_, by simp, .start⟩
  · intro v x hv; cases hv
  · intro w hw; cases hw

end Amg
end Istl
