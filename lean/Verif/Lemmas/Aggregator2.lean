import Verif.Lemmas.Aggregator
import Verif.Props.C43

/-! Growth loops and main loop of the aggregation. -/

namespace Istl
namespace Amg
open MatMat

variable {G : Graph} {agg0 : Nat → Agg} {a sd : Nat} {st : AgSt}

/-! ## Candidates come from the front -/

theorem tieBreak_cands (G : Graph) (st : AgSt) (al : Bool) (s : Sel) (v : Nat) :
    ((tieBreak G st al s v).cands = s.cands ∨ (tieBreak G st al s v).cands = [v] ∨ (tieBreak G st al s v).cands = s.cands ++ [v]) ∧
      (tieBreak G st al s v).maxTwo = s.maxTwo := by
  unfold tieBreak
  dsimp only
  split
  · split
    · exact ⟨Or.inr (Or.inl rfl), rfl⟩
    · split
      · exact ⟨Or.inr (Or.inr rfl), rfl⟩
      · exact ⟨Or.inl rfl, rfl⟩
  · split
    · exact ⟨Or.inr (Or.inl rfl), rfl⟩
    · exact ⟨Or.inl rfl, rfl⟩

theorem selStep_cands (G : Graph) (P : Props) (st : AgSt) (s : Sel) (v : Nat) (h0 : 0 ≤ s.maxTwo) :
    ((selStep G P st s v).cands = s.cands ∨ (selStep G P st s v).cands = [v] ∨ (selStep G P st s v).cands = s.cands ++ [v]) ∧
      0 ≤ (selStep G P st s v).maxTwo := by
  unfold selStep
  by_cases hi : P.isolated v = true
  · rw [if_pos hi]; exact ⟨Or.inl rfl, h0⟩
  · rw [if_neg hi]
    dsimp only
    by_cases h2 : (twoWay G P st v st.cur : Int) > 0
    · rw [if_pos h2]
      unfold selTwo
      split
      · obtain ⟨h1, h3⟩ := tieBreak_cands G st true s v
        exact ⟨h1, by rw [h3]; exact h0⟩
      · split
        · exact ⟨Or.inr (Or.inl rfl), by dsimp only; omega⟩
        · exact ⟨Or.inl rfl, h0⟩
    · rw [if_neg h2]
      have e : selTwo G st (twoWay G P st v st.cur) s v = s := by
        unfold selTwo
        rw [if_neg (fun hc => h2 hc.2), if_neg (by omega)]
      rw [e]
      unfold selOne
      split
      · exact ⟨Or.inl rfl, h0⟩
      · split
        · exact ⟨Or.inl rfl, h0⟩
        · split
          · obtain ⟨h1, h3⟩ := tieBreak_cands G st false s v
            exact ⟨h1, by rw [h3]; exact h0⟩
          · split
            · exact ⟨Or.inr (Or.inl rfl), h0⟩
            · exact ⟨Or.inl rfl, h0⟩

theorem candidates_sublist (G : Graph) (P : Props) (st : AgSt) : (candidates G P st).Sublist st.front := by
  have key : ∀ (l Q : List Nat) (s : Sel), 0 ≤ s.maxTwo → s.cands.Sublist Q → (l.foldl (selStep G P st) s).cands.Sublist (Q ++ l) := by
    intro l
    induction l with
    | nil => intro Q s _ h; simpa using h
    | cons v l ih =>
      intro Q s h0 h
      obtain ⟨h1, h2⟩ := selStep_cands G P st s v h0
      rw [List.foldl_cons, List.append_cons]
      apply ih (Q ++ [v]) _ h2
      rcases h1 with h1 | h1 | h1
      · rw [h1]; exact h.trans (List.sublist_append_left _ _)
      · rw [h1]; exact List.sublist_append_right _ _
      · rw [h1]; exact h.append_right _
  have := key st.front [] ⟨0, 0, -1, some (-1), []⟩ (by simp) (List.Sublist.refl _)
  simpa [candidates] using this

theorem isoCandidate_mem (G : Graph) (c : Crit) (st : AgSt) (ca : List Agg) {v : Nat} (h : isoCandidate G c st ca = some v) :
    v ∈ st.front := by
  have step : ∀ s w, (isoSelStep G c st ca s w).cand = s.cand ∨ (isoSelStep G c st ca s w).cand = some w := by
    intro s w
    unfold isoSelStep
    dsimp only
    split
    · exact Or.inl rfl
    · split
      · exact Or.inl rfl
      · split
        · split
          · exact Or.inr rfl
          · exact Or.inl rfl
        · split
          · exact Or.inr rfl
          · exact Or.inl rfl
  have key : ∀ (l : List Nat) (s : IsoSel), (l.foldl (isoSelStep G c st ca) s).cand = some v → s.cand = some v ∨ v ∈ l := by
    intro l
    induction l with
    | nil => intro s h; exact Or.inl h
    | cons w l ih =>
      intro s h
      rw [List.foldl_cons] at h
      rcases ih _ h with h1 | h1
      · rcases step s w with h2 | h2
        · exact Or.inl (by rw [← h2]; exact h1)
        · rw [h2] at h1
          simp only [Option.some.injEq] at h1
          exact Or.inr (by simp [h1])
      · exact Or.inr (by simp [h1])
  rcases key _ _ h with h1 | h1
  · cases h1
  · exact h1

/-! ## The growth loops -/

theorem GInv.size_le (h : GInv G agg0 a sd st) : st.verts.length ≤ G.n :=
  nodup_length_le (h.1.asc.imp (fun h => Nat.ne_of_lt h)) (fun x hx => (h.1.un x hx).2)

theorem grow_inv (hG : G.WF) (P : Props) (c : Crit) (hc : c.minSize ≤ c.maxSize) : ∀ (fuel dist : Nat) (st : AgSt),
    GInv G agg0 a sd st → st.verts.length ≤ max 1 c.maxSize → G.n + 1 ≤ fuel + st.verts.length →
    ∃ st', grow G P c sd fuel dist st = some st' ∧ GInv G agg0 a sd st' ∧ (∀ x ∈ st.verts, x ∈ st'.verts) ∧
      st.verts.length ≤ st'.verts.length ∧ st'.verts.length ≤ max 1 c.maxSize
  | 0, dist, st, h, hM, hf => by
    have := h.size_le
    omega
  | fuel + 1, dist, st, h, hM, hf => by
    unfold grow
    by_cases hl : st.verts.length < c.minSize ∧ dist < c.maxDistance
    · rw [if_pos hl]
      dsimp only
      by_cases hcs : (candidates G P st).length = 0
      · rw [if_pos hcs]
        exact ⟨st, rfl, h, fun _ hx => hx, le_refl _, hM⟩
      · rw [if_neg hcs]
        have hroom : room c st.verts.length = c.maxSize - st.verts.length := by
          unfold room; rw [if_pos (by omega)]
        have hsub : ((candidates G P st).take (room c st.verts.length)).Sublist st.front :=
          (List.take_sublist _ _).trans (candidates_sublist G P st)
        obtain ⟨h1, e1, m1⟩ := h.addMany hG hsub
        have hlen : ((candidates G P st).take (room c st.verts.length)).length =
            min (c.maxSize - st.verts.length) (candidates G P st).length := by rw [List.length_take, hroom]
        obtain ⟨st', e, h2, h3, h4, h5⟩ := grow_inv hG P c hc fuel (distance sd) _ h1 (by omega) (by omega)
        exact ⟨st', e, h2, fun x hx => h3 x ((m1 x).mpr (Or.inl hx)), by omega, h5⟩
    · rw [if_neg hl]
      exact ⟨st, rfl, h, fun _ hx => hx, le_refl _, hM⟩

theorem growIso_inv (hG : G.WF) (c : Crit) (hc : c.minSize ≤ c.maxSize) (ca : List Agg) : ∀ (fuel : Nat) (st : AgSt),
    GInv G agg0 a sd st → st.verts.length ≤ max 1 c.maxSize → G.n + 1 ≤ fuel + st.verts.length →
    ∃ st', growIso G c ca fuel st = some (.ok st') ∧ GInv G agg0 a sd st' ∧ (∀ x ∈ st.verts, x ∈ st'.verts) ∧
      st.verts.length ≤ st'.verts.length ∧ st'.verts.length ≤ max 1 c.maxSize
  | 0, st, h, hM, hf => by
    have := h.size_le
    omega
  | fuel + 1, st, h, hM, hf => by
    unfold growIso
    by_cases hl : st.verts.length < c.minSize ∧ st.conn.length < c.maxConn
    · rw [if_pos hl]
      cases hcs : isoCandidate G c st ca with
      | none => exact ⟨st, rfl, h, fun _ hx => hx, le_refl _, hM⟩
      | some v =>
        dsimp only
        obtain ⟨st1, e1, h1, ev, hnv⟩ := h.add1 hG (isoCandidate_mem G c st ca hcs)
        have hlen : st1.verts.length = st.verts.length + 1 := by rw [ev, setInsert_length v _ h.1.asc hnv]
        obtain ⟨st', e, h2, h3, h4, h5⟩ := growIso_inv hG c hc ca fuel st1 h1 (by omega) (by omega)
        rw [e1]
        refine ⟨st', e, h2, fun x hx => h3 x ?_, by omega, h5⟩
        rw [ev, (setInsert_spec v _ h.1.asc).2]
        exact Or.inr hx
    · rw [if_neg hl]
      exact ⟨st, rfl, h, fun _ hx => hx, le_refl _, hM⟩

theorem rounding_inv (hG : G.WF) (P : Props) (c : Crit) : ∀ (fuel : Nat) (st : AgSt),
    GInv G agg0 a sd st → st.verts.length ≤ max 1 c.maxSize → G.n + 1 ≤ fuel + st.verts.length →
    ∃ st', rounding G P c sd fuel st = some st' ∧ GInv G agg0 a sd st' ∧ (∀ x ∈ st.verts, x ∈ st'.verts) ∧
      st.verts.length ≤ st'.verts.length ∧ st'.verts.length ≤ max 1 c.maxSize
  | 0, st, h, hM, hf => by
    have := h.size_le
    omega
  | fuel + 1, st, h, hM, hf => by
    unfold rounding
    by_cases hl : P.isolated sd = false ∧ st.verts.length < c.maxSize
    · rw [if_pos hl]
      cases hcs : st.front.find? (roundOk G P c st) with
      | none => exact ⟨st, rfl, h, fun _ hx => hx, le_refl _, hM⟩
      | some v =>
        dsimp only
        have hroom : room c st.verts.length = (c.maxSize - st.verts.length - 1) + 1 := by
          unfold room; rw [if_pos (by omega)]; omega
        have ht : [v].take (room c st.verts.length) = [v] := by rw [hroom]; simp
        rw [ht]
        obtain ⟨h1, e1, m1⟩ := h.addMany hG (vs := [v]) (List.singleton_sublist.mpr (List.mem_of_find?_eq_some hcs))
        simp only [List.length_singleton] at e1
        obtain ⟨st', e, h2, h3, h4, h5⟩ := rounding_inv hG P c fuel _ h1 (by omega) (by omega)
        exact ⟨st', e, h2, fun x hx => h3 x ((m1 x).mpr (Or.inl hx)), by omega, h5⟩
    · rw [if_neg hl]
      exact ⟨st, rfl, h, fun _ hx => hx, le_refl _, hM⟩

theorem growFrom_inv (hG : G.WF) (P : Props) (c : Crit) (hc : c.minSize ≤ c.maxSize) (fuel : Nat) (hf : G.n + 1 ≤ fuel)
    (st : AgSt) (v a : Nat) (hid : st.id + 1 = (a : Int)) (hvn : v < G.n) (hun : st.agg v = .unagg)
    (hfr : st.front = []) (hflag : ∀ w, st.flag w = true → st.agg w ≠ .unagg) :
    ∃ st', growFrom G P c fuel v st = some (.ok st') ∧ GInv G st.agg a v st' ∧ v ∈ st'.verts ∧
      st'.verts.length ≤ max 1 c.maxSize := by
  obtain ⟨s1, e1, h1, ev⟩ := seed_inv hG st v a hid hvn hun hfr hflag
  have hl : s1.verts.length = 1 := by rw [ev]; rfl
  unfold growFrom
  rw [e1]
  dsimp only
  by_cases hi : P.isolated v = true
  · rw [if_pos hi]
    obtain ⟨st', e, h2, h3, _, h5⟩ := growIso_inv hG c hc (nonisoNeighbours v) fuel s1 h1 (by omega) (by omega)
    exact ⟨st', e, h2, h3 v (by rw [ev]; simp), h5⟩
  · rw [if_neg hi]
    obtain ⟨st', e, h2, h3, _, h5⟩ := grow_inv hG P c hc fuel 0 s1 h1 (by omega) (by omega)
    exact ⟨st', by rw [e]; rfl, h2, h3 v (by rw [ev]; simp), h5⟩

/-! ## The partition -/

/-- Aggregate `x` with first vertex `f`: it is connected, and consists of a connected core of at most `M` vertices and non-isolated
vertices attached to it later. -/
structure AggOk (G : Graph) (P : Props) (M : Nat) (agg : Nat → Agg) (x f : Nat) : Prop where
  lt : f < G.n
  first : IsFirst agg f
  val : agg f = .id x
  num : numBelow agg f = x
  reach : ∀ v, agg v = .id x → Relation.ReflTransGen (fun u t => t ∈ G.adj u ∧ agg t = .id x) f v
  core : ∃ core : List Nat, core.Nodup ∧ core.length ≤ M ∧ (∀ v ∈ core, agg v = .id x) ∧ f ∈ core ∧
    (∀ v ∈ core, Relation.ReflTransGen (fun u t => t ∈ G.adj u ∧ t ∈ core) f v) ∧
    ∀ v, agg v = .id x → v ∉ core → P.isolated v = false ∧ ∃ t ∈ G.adj v, t ≠ v ∧ agg t = .id x

structure AI (G : Graph) (P : Props) (M i k : Nat) (agg : Nat → Agg) : Prop where
  below : ∀ v, v < i → agg v ≠ .unagg
  out : ∀ v, G.n ≤ v → agg v = .unagg
  ids : ∀ v x, agg v = .id x → x < k
  firsts : ∀ x, x < k → ∃ f, f < i ∧ AggOk G P M agg x f
  numB : numBelow agg i = k

theorem isFirst_congr {agg agg' : Nat → Agg} {f : Nat} (h : ∀ u, u ≤ f → agg' u = agg u) : IsFirst agg' f ↔ IsFirst agg f := by
  unfold IsFirst
  rw [h f (le_refl _)]
  refine and_congr_right fun _ => ?_
  constructor
  · intro h' u hu; rw [← h u (by omega)]; exact h' u hu
  · intro h' u hu; rw [h u (by omega)]; exact h' u hu

theorem numBelow_congr {agg agg' : Nat → Agg} {i : Nat} (h : ∀ u, u < i → agg' u = agg u) : numBelow agg' i = numBelow agg i := by
  unfold numBelow
  congr 1
  apply Finset.filter_congr
  intro f hf
  have := Finset.mem_range.mp hf
  exact isFirst_congr (fun u hu => h u (by omega))

/-- changing only vertices that had no aggregate keeps an aggregate's description if those added to it are attached -/
theorem AggOk.extend {P : Props} {M i : Nat} {agg agg' : Nat → Agg} {x f : Nat} (h : AggOk G P M agg x f) (hfi : f < i)
    (hlow : ∀ u, u < i → agg' u = agg u) (hkeep : ∀ v, agg v ≠ .unagg → agg' v = agg v)
    (hnew : ∀ v, agg v = .unagg → agg' v = .id x → P.isolated v = false ∧ ∃ t, t ∈ G.adj v ∧ v ∈ G.adj t ∧ t ≠ v ∧ agg t = .id x) :
    AggOk G P M agg' x f := by
  have hk : ∀ v, agg v = .id x → agg' v = .id x := fun v hv => by rw [hkeep v (by rw [hv]; simp)]; exact hv
  have hr : ∀ v, agg v = .id x → Relation.ReflTransGen (fun u t => t ∈ G.adj u ∧ agg' t = .id x) f v :=
    fun v hv => rtg_mono (fun u t hut => ⟨hut.1, hk t hut.2⟩) (h.reach v hv)
  have hcase : ∀ v, agg' v = .id x → agg v = .id x ∨ agg v = .unagg := by
    intro v hv
    by_cases hu : agg v = .unagg
    · exact Or.inr hu
    · exact Or.inl (by rw [← hkeep v hu]; exact hv)
  refine ⟨h.lt, (isFirst_congr (fun u hu => hlow u (by omega))).mpr h.first, hk f h.val, ?_, ?_, ?_⟩
  · rw [numBelow_congr (fun u hu => hlow u (by omega))]; exact h.num
  · intro v hv
    rcases hcase v hv with h1 | h1
    · exact hr v h1
    · obtain ⟨_, t, ht, ht', _, hat⟩ := hnew v h1 hv
      exact (hr t hat).tail ⟨ht', hv⟩
  · obtain ⟨core, c1, c2, c3, c4, c5, c6⟩ := h.core
    refine ⟨core, c1, c2, fun v hv => hk v (c3 v hv), c4, c5, ?_⟩
    intro v hv hnc
    rcases hcase v hv with h1 | h1
    · obtain ⟨q1, t, q2, q3, q4⟩ := c6 v h1 hnc
      exact ⟨q1, t, q2, q3, hk t q4⟩
    · obtain ⟨q1, t, q2, _, q3, q4⟩ := hnew v h1 hv
      exact ⟨q1, t, q2, q3, hk t q4⟩

variable {P : Props} {M i k : Nat} {agg : Nat → Agg}

theorem AI.not_first (h : AI G P M i k agg) (hi : agg i ≠ .unagg) : ¬ IsFirst agg i := by
  intro hF
  cases hv : agg i with
  | unagg => exact hi hv
  | iso => exact hF.1 hv
  | id x =>
    obtain ⟨f, hfi, hf⟩ := h.firsts x (h.ids i x hv)
    exact hF.2 f hfi (by rw [hf.val, hv])

theorem AI.skip (h : AI G P M i k agg) (hi : agg i ≠ .unagg) : AI G P M (i + 1) k agg := by
  refine ⟨?_, h.out, h.ids, ?_, ?_⟩
  · intro v hv
    by_cases hvi : v = i
    · subst hvi; exact hi
    · exact h.below v (by omega)
  · intro x hx
    obtain ⟨f, h1, h2⟩ := h.firsts x hx
    exact ⟨f, by omega, h2⟩
  · rw [numBelow_succ, if_neg (h.not_first hi)]; exact h.numB

/-- giving vertex `i` alone a value: isolated, or the number of a neighbouring aggregate -/
theorem AI.set (h : AI G P M i k agg) (hin : i < G.n) (hi : agg i = .unagg) (w : Agg) (hw : w ≠ .unagg)
    (hmerge : ∀ x, w = .id x → P.isolated i = false ∧ ∃ t, t ∈ G.adj i ∧ i ∈ G.adj t ∧ t ≠ i ∧ agg t = .id x) :
    AI G P M (i + 1) k (upd agg i w) := by
  have hkeep : ∀ v, agg v ≠ .unagg → upd agg i w v = agg v := by
    intro v hv
    rw [upd_ne _ _ (show v ≠ i from by rintro rfl; exact hv hi)]
  have hlow : ∀ u, u < i → upd agg i w u = agg u := fun u hu => upd_ne _ _ (by omega)
  have h' : AI G P M i k (upd agg i w) := by
    refine ⟨?_, ?_, ?_, ?_, ?_⟩
    · intro v hv; rw [hlow v hv]; exact h.below v hv
    · intro v hv; rw [upd_ne _ _ (by omega)]; exact h.out v hv
    · intro v x hv
      by_cases hvi : v = i
      · subst hvi
        rw [upd_same] at hv
        obtain ⟨_, t, _, _, _, ht⟩ := hmerge x hv
        exact h.ids t x ht
      · rw [upd_ne _ _ hvi] at hv; exact h.ids v x hv
    · intro x hx
      obtain ⟨f, h1, h2⟩ := h.firsts x hx
      refine ⟨f, h1, h2.extend h1 hlow hkeep ?_⟩
      intro v hv hv'
      by_cases hvi : v = i
      · subst hvi
        rw [upd_same] at hv'
        exact hmerge x hv'
      · rw [upd_ne _ _ hvi, hv] at hv'
        cases hv'
    · rw [numBelow_congr hlow]; exact h.numB
  exact h'.skip (by rw [upd_same]; exact hw)

/-- a new aggregate -/
theorem AI.new (h : AI G P M i k agg) (hin : i < G.n) (core : List Nat) (hnd : core.Nodup) (hlen : core.length ≤ M)
    (hic : i ∈ core) (hun : ∀ v ∈ core, agg v = .unagg ∧ v < G.n)
    (hreach : ∀ v ∈ core, Relation.ReflTransGen (fun u t => t ∈ G.adj u ∧ t ∈ core) i v)
    (agg' : Nat → Agg) (hagg : ∀ v, agg' v = if v ∈ core then .id k else agg v) : AI G P M (i + 1) (k + 1) agg' := by
  have hge : ∀ v ∈ core, i ≤ v := by
    intro v hv
    by_contra hc
    exact h.below v (by omega) (hun v hv).1
  have hlow : ∀ u, u < i → agg' u = agg u := by
    intro u hu
    rw [hagg, if_neg (fun hc => by have := hge u hc; omega)]
  have hkeep : ∀ v, agg v ≠ .unagg → agg' v = agg v := by
    intro v hv
    rw [hagg, if_neg (fun hc => hv (hun v hc).1)]
  have hk : ∀ v, agg' v = .id k ↔ v ∈ core := by
    intro v
    rw [hagg]
    by_cases hv : v ∈ core
    · simp [hv]
    · rw [if_neg hv]
      refine ⟨fun hc => ?_, fun hc => absurd hc hv⟩
      have := h.ids v k hc
      omega
  have hF : IsFirst agg' i := by
    refine ⟨by rw [(hk i).mpr hic]; simp, ?_⟩
    intro u hu hc
    rw [(hk i).mpr hic] at hc
    have := hge u ((hk u).mp hc)
    omega
  have hn : numBelow agg' i = k := by rw [numBelow_congr hlow]; exact h.numB
  refine ⟨?_, ?_, ?_, ?_, ?_⟩
  · intro v hv
    by_cases hvi : v = i
    · subst hvi; rw [(hk v).mpr hic]; simp
    · rw [hlow v (by omega)]; exact h.below v (by omega)
  · intro v hv
    rw [hagg, if_neg (fun hc => by have := (hun v hc).2; omega)]
    exact h.out v hv
  · intro v x hv
    by_cases hvc : v ∈ core
    · rw [(hk v).mpr hvc] at hv
      simp only [Agg.id.injEq] at hv
      omega
    · rw [hagg, if_neg hvc] at hv
      have := h.ids v x hv
      omega
  · intro x hx
    by_cases hxk : x = k
    · subst hxk
      refine ⟨i, by omega, hin, hF, (hk i).mpr hic, hn, ?_, core, hnd, hlen, fun v hv => (hk v).mpr hv, hic, hreach, ?_⟩
      · intro v hv
        exact rtg_mono (fun u t hut => ⟨hut.1, (hk t).mpr hut.2⟩) (hreach v ((hk v).mp hv))
      · intro v hv hnc
        exact absurd ((hk v).mp hv) hnc
    · obtain ⟨f, h1, h2⟩ := h.firsts x (by omega)
      refine ⟨f, by omega, h2.extend h1 hlow hkeep ?_⟩
      intro v hv hv'
      by_cases hvc : v ∈ core
      · rw [(hk v).mpr hvc] at hv'
        simp only [Agg.id.injEq] at hv'
        omega
      · rw [hagg, if_neg hvc, hv] at hv'
        cases hv'
  · rw [numBelow_succ, if_pos hF, hn]

/-! ## The main loop -/

/-- state of `build` when the vertices below `i` are done -/
structure BI (G : Graph) (P : Props) (c : Crit) (i : Nat) (b : BuildSt) : Prop where
  ai : AI G P (max 1 c.maxSize) i (b.con + b.iso) b.st.agg
  idk : b.st.id + 1 = ((b.con + b.iso : Nat) : Int)
  flags : ∀ w, b.st.flag w = true → b.st.agg w = .unagg → w ∈ b.st.front
  maxA : b.maxA ≤ max 1 c.maxSize
  hist : Coarsened G P c i (b.con + b.iso) b.st.agg

theorem addEdge_verts (l : List Nat) (st : AgSt) : (l.foldl addEdge st).verts = st.verts := by
  induction l generalizing st with
  | nil => rfl
  | cons t l ih =>
    rw [List.foldl_cons, ih]
    unfold addEdge
    split <;> rfl

theorem setInsert_mem (w v : Nat) (l : List Nat) (h : v ∈ MatMat.setInsert w l) : v = w ∨ v ∈ l := by
  unfold MatMat.setInsert at h
  rcases List.mem_append.mp h with h | h
  · exact Or.inr ((List.takeWhile_sublist _).subset h)
  · rcases List.mem_cons.mp h with h | h
    · exact Or.inl h
    · exact Or.inr ((List.dropWhile_sublist _).subset ((List.dropWhile_sublist _).subset h))

theorem addMany_verts (vs : List Nat) (st : AgSt) (v : Nat) : v ∈ (addMany G vs st).verts → v ∈ vs ∨ v ∈ st.verts := by
  unfold addMany
  dsimp only
  have key : ∀ (vs : List Nat) (s : AgSt), v ∈ (vs.foldl (addStep G) s).verts → v ∈ vs ∨ v ∈ s.verts := by
    intro vs
    induction vs with
    | nil => intro s h; exact Or.inr h
    | cons w vs ih =>
      intro s h
      rw [List.foldl_cons] at h
      rcases ih _ h with h | h
      · exact Or.inl (List.mem_cons_of_mem _ h)
      · unfold addStep absorb at h
        rw [addEdge_verts] at h
        rcases setInsert_mem w v s.verts h with h | h
        · exact Or.inl (h ▸ List.mem_cons_self)
        · exact Or.inr h
  exact key vs _

theorem candidates_noniso (G : Graph) (P : Props) (st : AgSt) : ∀ v ∈ candidates G P st, P.isolated v = false := by
  have key : ∀ (l : List Nat) (s : Sel), 0 ≤ s.maxTwo → (∀ v ∈ s.cands, P.isolated v = false) →
      ∀ v ∈ (l.foldl (selStep G P st) s).cands, P.isolated v = false := by
    intro l
    induction l with
    | nil => intro s _ h; exact h
    | cons w l ih =>
      intro s h0 h
      obtain ⟨h1, h2⟩ := selStep_cands G P st s w h0
      rw [List.foldl_cons]
      refine ih _ h2 ?_
      by_cases hi : P.isolated w = true
      · have : selStep G P st s w = s := by unfold selStep; rw [if_pos hi]
        rw [this]; exact h
      · have hi' : P.isolated w = false := by simpa using hi
        intro v hv
        rcases h1 with e | e | e
        · rw [e] at hv; exact h v hv
        · rw [e] at hv; simp at hv; rw [hv]; exact hi'
        · rw [e] at hv
          rcases List.mem_append.mp hv with hv | hv
          · exact h v hv
          · simp at hv; rw [hv]; exact hi'
  exact key st.front _ (by simp) (by simp)

theorem grow_noniso (P : Props) (c : Crit) (sd : Nat) : ∀ (fuel dist : Nat) (st st' : AgSt), (∀ v ∈ st.verts, P.isolated v = false) →
    grow G P c sd fuel dist st = some st' → ∀ v ∈ st'.verts, P.isolated v = false
  | 0, dist, st, st', h, e => by unfold grow at e; cases e
  | fuel + 1, dist, st, st', h, e => by
    unfold grow at e
    split at e
    · dsimp only at e
      split at e
      · cases e; exact h
      · refine grow_noniso P c sd fuel _ _ st' ?_ e
        intro v hv
        rcases addMany_verts _ _ _ hv with hv | hv
        · exact candidates_noniso G P st v (List.mem_of_mem_take hv)
        · exact h v hv
    · cases e; exact h

theorem rounding_noniso (P : Props) (c : Crit) (sd : Nat) : ∀ (fuel : Nat) (st st' : AgSt), (∀ v ∈ st.verts, P.isolated v = false) →
    rounding G P c sd fuel st = some st' → ∀ v ∈ st'.verts, P.isolated v = false
  | 0, st, st', h, e => by unfold rounding at e; cases e
  | fuel + 1, st, st', h, e => by
    unfold rounding at e
    split at e
    · split at e
      · cases e; exact h
      · rename_i w hw
        refine rounding_noniso P c sd fuel _ st' ?_ e
        intro v hv
        rcases addMany_verts _ _ _ hv with hv | hv
        · have := List.mem_of_mem_take hv
          simp at this
          subst this
          have := List.find?_some hw
          unfold roundOk at this
          by_contra hc
          rw [if_pos (by simpa using hc)] at this
          cases this
        · exact h v hv
    · cases e; exact h

theorem addEdge_agg (l : List Nat) (st : AgSt) : (l.foldl addEdge st).agg = st.agg := by
  induction l generalizing st with
  | nil => rfl
  | cons t l ih =>
    rw [List.foldl_cons, ih]
    unfold addEdge
    split <;> rfl

theorem addEdge_flag_mono (l : List Nat) (st : AgSt) (w : Nat) (h : st.flag w = true) : (l.foldl addEdge st).flag w = true := by
  induction l generalizing st with
  | nil => exact h
  | cons t l ih =>
    rw [List.foldl_cons]
    apply ih
    unfold addEdge
    split
    · dsimp only
      by_cases hw : w = t
      · subst hw; simp
      · rw [upd_ne _ _ hw]; exact h
    · exact h

theorem addEdge_flag (l : List Nat) (st : AgSt) (w : Nat) (hw : w ∈ l) (hu : st.agg w = .unagg) :
    (l.foldl addEdge st).flag w = true := by
  induction l generalizing st with
  | nil => simp at hw
  | cons t l ih =>
    rw [List.foldl_cons]
    have hagg : (addEdge st t).agg = st.agg := addEdge_agg [t] st
    rcases List.mem_cons.mp hw with hwt | hwl
    · subst hwt
      apply addEdge_flag_mono
      unfold addEdge
      split
      · dsimp only; simp
      · rename_i hc
        dsimp only
        by_contra hn
        exact hc ⟨hu, by simpa using hn⟩
    · exact ih _ hwl (by rw [hagg]; exact hu)

/-- after seeding, every neighbour without an aggregate is in the front -/
theorem seed_front (hG : G.WF) (st : AgSt) (v a : Nat) (hid : st.id + 1 = (a : Int)) (hvn : v < G.n) (hun : st.agg v = .unagg)
    (hf : st.front = []) (hflag : ∀ w, st.flag w = true → st.agg w ≠ .unagg) (st' : AgSt) (e : seed G v st = .ok st') :
    ∀ t ∈ G.adj v, t ≠ v → st.agg t = .unagg → t ∈ st'.front := by
  intro t ht htv hu
  obtain ⟨s1, e1, h1, ev⟩ := seed_inv hG st v a hid hvn hun hf hflag
  rw [e] at e1
  cases e1
  have hfl : st'.flag t = true := by
    unfold seed add1 at e
    dsimp only at e
    rw [hf] at e
    have e' := Res.ok.inj e
    rw [← e']
    unfold absorb
    dsimp only
    apply addEdge_flag _ _ _ ht
    dsimp only
    rw [upd_ne _ _ htv]; exact hu
  rcases h1.1.flagv t hfl (by rw [ev]; simp [htv]) hu with h | h
  · exact h
  · simp at h

theorem candidates_nil (G : Graph) (P : Props) (st : AgSt) (h : candidates G P st = []) :
    ∀ v ∈ st.front, P.isolated v = true ∨ (twoWay G P st v st.cur = 0 ∧ oneWay G P st v st.cur = 0) := by
  have ne : ∀ (l : List Nat) (s : Sel), 0 ≤ s.maxTwo → s.cands ≠ [] → (l.foldl (selStep G P st) s).cands ≠ [] := by
    intro l
    induction l with
    | nil => intro s _ h; exact h
    | cons w l ih =>
      intro s h0 h
      obtain ⟨h1, h2⟩ := selStep_cands G P st s w h0
      rw [List.foldl_cons]
      refine ih _ h2 ?_
      rcases h1 with e | e | e <;> rw [e]
      · exact h
      · simp
      · simp
  have key : ∀ (l : List Nat), (l.foldl (selStep G P st) ⟨0, 0, -1, some (-1), []⟩).cands = [] →
      ∀ v ∈ l, P.isolated v = true ∨ (twoWay G P st v st.cur = 0 ∧ oneWay G P st v st.cur = 0) := by
    intro l
    induction l with
    | nil => intro _ v hv; simp at hv
    | cons w l ih =>
      intro h v hv
      rw [List.foldl_cons] at h
      by_cases hcase : P.isolated w = true ∨ (twoWay G P st w st.cur = 0 ∧ oneWay G P st w st.cur = 0)
      · have hs : selStep G P st ⟨0, 0, -1, some (-1), []⟩ w = ⟨0, 0, -1, some (-1), []⟩ := by
          unfold selStep
          rcases hcase with hi | ⟨h2, h1⟩
          · rw [if_pos hi]
          · split
            · rfl
            · dsimp only
              rw [h2, h1]
              simp [selTwo, selOne]
        rw [hs] at h
        rcases List.mem_cons.mp hv with e | hvl
        · rw [e]; exact hcase
        · exact ih h v hvl
      · exfalso
        refine ne l _ ?_ ?_ h
        · exact (selStep_cands G P st _ w (by simp)).2
        · push Not at hcase
          obtain ⟨hi, h12⟩ := hcase
          unfold selStep
          rw [if_neg hi]
          dsimp only
          by_cases h2 : twoWay G P st w st.cur = 0
          · have h1 := h12 h2
            rw [h2]
            have hpos : ((oneWay G P st w st.cur : Nat) : Int) > 0 := by omega
            simp [selTwo, selOne, h1, admissible, show ¬ ((0 : Int) = (oneWay G P st w st.cur : Nat)) from by omega,
              Nat.pos_of_ne_zero h1]
          · have hpos : ((twoWay G P st w st.cur : Nat) : Int) > 0 := by omega
            rw [if_pos hpos]
            unfold selTwo
            rw [if_neg (by dsimp only; omega), if_pos (by dsimp only; omega)]
            simp
  exact key st.front h

theorem grow_single (hG : G.WF) (P : Props) (c : Crit) (hc : c.minSize ≤ c.maxSize) (h2 : 2 ≤ c.minSize) (hd : 1 ≤ c.maxDistance)
    (fuel : Nat) (st st' : AgSt) (h : GInv G agg0 a sd st) (hv : st.verts.length = 1) (hf : G.n + 1 ≤ fuel)
    (e : grow G P c sd fuel 0 st = some st') (hl : st'.verts.length = 1) : candidates G P st = [] := by
  cases fuel with
  | zero => omega
  | succ fuel =>
    unfold grow at e
    rw [if_pos ⟨by omega, by omega⟩] at e
    dsimp only at e
    by_cases hcs : (candidates G P st).length = 0
    · exact List.length_eq_zero_iff.mp hcs
    · rw [if_neg hcs] at e
      have hroom : room c st.verts.length = c.maxSize - st.verts.length := by
        unfold room; rw [if_pos (by omega)]
      have hsub : ((candidates G P st).take (room c st.verts.length)).Sublist st.front :=
        (List.take_sublist _ _).trans (candidates_sublist G P st)
      obtain ⟨h1, e1, m1⟩ := h.addMany hG hsub
      have hlen : ((candidates G P st).take (room c st.verts.length)).length =
          min (c.maxSize - st.verts.length) (candidates G P st).length := by rw [List.length_take, hroom]
      obtain ⟨s3, e3, _, _, h4, _⟩ := grow_inv hG P c hc fuel (distance sd) _ h1 (by omega) (by omega)
      rw [e3] at e
      cases e
      omega

/-- a seed that stays alone had no neighbour that could have been taken -/
theorem growFrom_single (hG : G.WF) (hsym : ∀ u t, u < G.n → t ∈ G.adj u → u ∈ G.adj t) (P : Props) (c : Crit)
    (hc : c.minSize ≤ c.maxSize) (h2 : 2 ≤ c.minSize) (hd : 1 ≤ c.maxDistance)
    (fuel : Nat) (hf : G.n + 1 ≤ fuel) (st st' : AgSt) (v a : Nat) (hid : st.id + 1 = (a : Int)) (hvn : v < G.n)
    (hun : st.agg v = .unagg) (hfr : st.front = []) (hflag : ∀ w, st.flag w = true → st.agg w ≠ .unagg) (hv : P.isolated v = false)
    (e : growFrom G P c fuel v st = some (.ok st')) (hl : st'.verts.length = 1) :
    ∀ u ∈ G.adj v, u ≠ v → st.agg u = .unagg → P.isolated u = true ∨ P.dep u v = false := by
  obtain ⟨s1, e1, h1, ev⟩ := seed_inv hG st v a hid hvn hun hfr hflag
  have hfront := seed_front hG st v a hid hvn hun hfr hflag s1 e1
  unfold growFrom at e
  rw [e1] at e
  dsimp only at e
  rw [if_neg (by simp [hv])] at e
  cases hg : grow G P c v fuel 0 s1 with
  | none => rw [hg] at e; cases e
  | some s2 =>
    rw [hg] at e
    simp only [Option.map_some, Option.some.injEq, Res.ok.injEq] at e
    subst e
    have hn := grow_single hG P c hc h2 hd fuel s1 s2 h1 (by rw [ev]; rfl) hf hg hl
    intro u hu huv hua
    rcases candidates_nil G P s1 hn u (hfront u hu huv hua) with h | ⟨h3, h4⟩
    · exact Or.inl h
    · right
      have hmem : v ∈ G.adj u := hsym v u hvn hu
      have hcur : s1.agg v = s1.cur := by
        rw [h1.1.aggv, if_pos (by rw [ev]; simp)]
        simp [AgSt.cur, h1.1.idv]
      unfold twoWay countEdges at h3
      unfold oneWay countEdges at h4
      have q3 := List.length_eq_zero_iff.mp h3
      have q4 := List.length_eq_zero_iff.mp h4
      rw [List.filter_eq_nil_iff] at q3 q4
      have r3 := q3 v hmem
      have r4 := q4 v hmem
      cases hdep : P.dep u v
      · rfl
      · cases hinf : P.infl u v
        · simp [hdep, hinf, hcur] at r4
        · simp [hdep, hinf, hcur] at r3

theorem growFrom_noniso (hG : G.WF) (P : Props) (c : Crit) (fuel : Nat)
    (st st' : AgSt) (v a : Nat) (hid : st.id + 1 = (a : Int)) (hvn : v < G.n) (hun : st.agg v = .unagg)
    (hfr : st.front = []) (hflag : ∀ w, st.flag w = true → st.agg w ≠ .unagg) (hv : P.isolated v = false)
    (e : growFrom G P c fuel v st = some (.ok st')) : ∀ w ∈ st'.verts, P.isolated w = false := by
  obtain ⟨s1, e1, h1, ev⟩ := seed_inv hG st v a hid hvn hun hfr hflag
  unfold growFrom at e
  rw [e1] at e
  dsimp only at e
  rw [if_neg (by simp [hv])] at e
  cases hg : grow G P c v fuel 0 s1 with
  | none => rw [hg] at e; cases e
  | some s2 =>
    rw [hg] at e
    simp only [Option.map_some, Option.some.injEq, Res.ok.injEq] at e
    subst e
    refine grow_noniso P c v fuel 0 s1 s2 ?_ hg
    intro w hw
    rw [ev] at hw
    simp at hw
    rw [hw]; exact hv

theorem unmark_flag (l : List Nat) (m : Nat → Bool) (v : Nat) :
    (l.foldl (fun m v => upd m v false) m) v = if v ∈ l then false else m v := by
  induction l generalizing m with
  | nil => simp
  | cons x l ih =>
    rw [List.foldl_cons, ih]
    by_cases hx : v = x
    · subst hx; simp
    · rw [upd_ne _ _ hx]; simp [hx]

theorem buildSeed_inv (hG : G.WF) (hsym : ∀ u t, u < G.n → t ∈ G.adj u → u ∈ G.adj t) (hloop : ∀ u, u < G.n → u ∉ G.adj u)
    (P : Props) (c : Crit) (hc : c.minSize ≤ c.maxSize) (fuel : Nat) (hf : G.n + 1 ≤ fuel) (i : Nat) (hi : i < G.n) (b : BuildSt)
    (h : BI G P c i b) (hun : b.st.agg i = .unagg) :
    ∃ b', buildSeed G P c fuel b i = some (.ok b') ∧ BI G P c (i + 1) b' := by
  have hfl : ∀ w, (unmarkFront b.st).flag w = true → (unmarkFront b.st).agg w ≠ .unagg := by
    intro w hw hcon
    have hw' : (b.st.front.foldl (fun m v => upd m v false) b.st.flag) w = true := hw
    rw [unmark_flag] at hw'
    by_cases hm : w ∈ b.st.front
    · rw [if_pos hm] at hw'; cases hw'
    · rw [if_neg hm] at hw'
      exact hm (h.flags w hw' hcon)
  have hiso : ∀ s : Nat, (P.excluded i = true ∨ (P.isolated i = true ∧ c.skipIsolated = true)) → BI G P c (i + 1) { b with st := { unmarkFront b.st with agg := upd (unmarkFront b.st).agg i .iso }, skipped := s } := by
    intro s hs
    refine ⟨h.ai.set hi hun .iso (by simp) (by intro x hx; cases hx), h.idk, ?_, h.maxA, h.hist.skip hun hs⟩
    intro w hw hu
    dsimp only at hw hu
    by_cases hwi : w = i
    · subst hwi; rw [upd_same] at hu; cases hu
    · rw [upd_ne _ _ hwi] at hu
      exact absurd hu (hfl w hw)
  unfold buildSeed
  dsimp only
  by_cases hex : P.excluded i = true
  · rw [if_pos hex]; exact ⟨_, rfl, hiso _ (Or.inl hex)⟩
  · rw [if_neg hex]
    by_cases hsk : P.isolated i = true ∧ c.skipIsolated = true
    · rw [if_pos hsk]; exact ⟨_, rfl, hiso _ (Or.inr hsk)⟩
    · rw [if_neg hsk]
      obtain ⟨s1, e1, h1, hv1, hM1⟩ := growFrom_inv hG P c hc fuel hf (unmarkFront b.st) i (b.con + b.iso) h.idk hi hun rfl hfl
      rw [e1]
      dsimp only
      obtain ⟨s2, e2, h2, hv2, hl2, hM2⟩ := rounding_inv (sd := i) hG P c fuel s1 h1 hM1 (by omega)
      rw [e2]
      refine ⟨finish G P c i { b with st := s2 }, rfl, ?_⟩
      have hi2 : i ∈ s2.verts := hv2 i hv1
      have hm := h2.1
      have hagg0 : (unmarkFront b.st).agg = b.st.agg := rfl
      rw [hagg0] at hm
      have hnew : AI G P (max 1 c.maxSize) (i + 1) (b.con + b.iso + 1) s2.agg :=
        h.ai.new hi s2.verts (hm.asc.imp (fun h => Nat.ne_of_lt h)) hM2 hi2 hm.un hm.reach s2.agg hm.aggv
      have hns : P.excluded i = false ∧ (P.isolated i = true → c.skipIsolated = false) := by
        refine ⟨by simpa using hex, fun hp => ?_⟩
        by_contra hq
        exact hsk ⟨hp, by simpa using hq⟩
      have hgrown : Coarsened G P c (i + 1) (b.con + b.iso + 1) s2.agg := by
        refine h.hist.grown hun hns.1 hns.2 s2.verts (hm.asc.imp (fun h => Nat.ne_of_lt h)) hM2 hi2 (fun v hv => (hm.un v hv).1)
          (fun v hv => (hm.un v hv).2) hm.reach ?_ s2.agg hm.aggv
        intro hni
        exact rounding_noniso P c i fuel s1 s2 (growFrom_noniso hG P c fuel (unmarkFront b.st) s1 i (b.con + b.iso) h.idk hi hun rfl hfl hni e1) e2
      have hfl2 : ∀ w, s2.flag w = true → s2.agg w = .unagg → w ∈ s2.front := by
        intro w hw hu
        rw [hm.aggv] at hu
        by_cases hwv : w ∈ s2.verts
        · rw [if_pos hwv] at hu; cases hu
        · rw [if_neg hwv] at hu
          rcases hm.flagv w hw hwv hu with hr | hr
          · exact hr
          · simp at hr
      have hcount : ∀ b' : BuildSt, b'.st = s2 → b'.con + b'.iso = b.con + b.iso + 1 → b'.maxA ≤ max 1 c.maxSize →
          BI G P c (i + 1) b' := by
        intro b' hs hcn hmx
        refine ⟨by rw [hs, hcn]; exact hnew, ?_, by rw [hs]; exact hfl2, hmx, by rw [hs, hcn]; exact hgrown⟩
        rw [hs, hcn, hm.idv]
        push_cast
        ring
      have hmA : b.maxA ≤ max 1 c.maxSize := h.maxA
      unfold finish
      by_cases h1v : s2.verts.length = 1 ∧ c.maxSize > 1
      · rw [if_pos h1v]
        by_cases hni : P.isolated i = false
        · rw [if_pos hni]
          cases hmn : mergeNeighbour G P s2 i with
          | none =>
            exact hcount _ rfl (by dsimp only; omega) (by dsimp only; omega)
          | some t =>
            dsimp only
            unfold mergeNeighbour at hmn
            have htm := List.mem_of_find?_eq_some hmn
            have htp := List.find?_some hmn
            simp only [Bool.and_eq_true, decide_eq_true_eq, ne_eq] at htp
            have hti : t ≠ i := fun hcon => hloop i hi (hcon ▸ htm)
            obtain ⟨q, hq⟩ := List.length_eq_one_iff.mp h1v.1
            have hvi : s2.verts = [i] := by
              rw [hq] at hi2 ⊢
              simp at hi2
              rw [hi2]
            have hat : s2.agg t = b.st.agg t := by
              rw [hm.aggv, if_neg (by rw [hvi]; simp [hti])]
            have hAI : AI G P (max 1 c.maxSize) (i + 1) (b.con + b.iso) (upd b.st.agg i (s2.agg t)) := by
              refine h.ai.set hi hun _ htp.1 ?_
              intro x hx
              exact ⟨hni, t, htm, hsym i t hi htm, hti, by rw [← hat]; exact hx⟩
            have hfun : upd s2.agg i (s2.agg t) = upd b.st.agg i (s2.agg t) := by
              funext w
              by_cases hw : w = i
              · subst hw; simp
              · rw [upd_ne _ _ hw, upd_ne _ _ hw, hm.aggv, if_neg (by rw [hvi]; simp [hw])]
            refine ⟨by dsimp only; rw [hfun]; exact hAI, ?_, ?_, h.maxA, ?_⟩
            · dsimp only
              rw [hm.idv]
              ring
            · intro w hw hu
              dsimp only at hw hu ⊢
              by_cases hwi : w = i
              · subst hwi; rw [upd_same] at hu; exact absurd hu htp.1
              · rw [upd_ne _ _ hwi] at hu
                exact hfl2 w hw hu
            · dsimp only
              rw [hfun, hat]
              refine h.hist.merged hun hns.1 hni h1v.2 t htm (by rw [← hat]; exact htp.1) (by rw [← hni]; exact htp.2.1) ?_ ?_
              rotate_left
              · intro h2 hd
                refine growFrom_single hG hsym P c hc h2 hd fuel hf (unmarkFront b.st) s1 i (b.con + b.iso) h.idk hi hun rfl hfl hni e1 ?_
                have : 1 ≤ s1.verts.length := List.length_pos_of_mem hv1
                omega
              have h3 := htp.2.2
              rw [hni] at h3
              simpa [admissible] using h3
        · rw [if_neg hni]
          exact hcount _ rfl (by dsimp only; omega) (by dsimp only; omega)
      · rw [if_neg h1v]
        split
        · exact hcount _ rfl (by dsimp only; omega) (by dsimp only; omega)
        · exact hcount _ rfl (by dsimp only; omega) (by dsimp only; omega)

theorem buildLoop_inv (hG : G.WF) (hsym : ∀ u t, u < G.n → t ∈ G.adj u → u ∈ G.adj t) (hloop : ∀ u, u < G.n → u ∉ G.adj u)
    (P : Props) (c : Crit) (hc : c.minSize ≤ c.maxSize) (fuel : Nat) (hf : G.n + 1 ≤ fuel) : ∀ (len i : Nat) (b : BuildSt),
    i + len = G.n → BI G P c i b →
    ∃ b', buildLoop G P c fuel (List.range' i len) b = some (.ok b') ∧ BI G P c G.n b'
  | 0, i, b, hi, h => by
    obtain rfl : i = G.n := by omega
    exact ⟨b, rfl, h⟩
  | len + 1, i, b, hi, h => by
    rw [List.range'_succ]
    unfold buildLoop
    by_cases hun : b.st.agg i ≠ .unagg
    · rw [if_pos hun]
      exact buildLoop_inv hG hsym hloop P c hc fuel hf len (i + 1) b (by omega) ⟨h.ai.skip hun, h.idk, h.flags, h.maxA, h.hist.done hun⟩
    · rw [if_neg hun]
      push Not at hun
      obtain ⟨b1, e1, h1⟩ := buildSeed_inv hG hsym hloop P c hc fuel hf i (by omega) b h hun
      rw [e1]
      exact buildLoop_inv hG hsym hloop P c hc fuel hf len (i + 1) b1 (by omega) h1

theorem build_inv (hG : G.WF) (hsym : ∀ u t, u < G.n → t ∈ G.adj u → u ∈ G.adj t) (hloop : ∀ u, u < G.n → u ∉ G.adj u)
    (P : Props) (c : Crit) (hc : c.minSize ≤ c.maxSize) (fuel : Nat) (hf : G.n + 1 ≤ fuel) :
    ∃ b, buildAggregates G P c fuel = some (.ok b) ∧ BI G P c G.n b := by
  unfold buildAggregates
  rw [List.range_eq_range']
  apply buildLoop_inv hG hsym hloop P c hc fuel hf G.n 0 _ (by omega)
  refine ⟨⟨by intro v hv; omega, by intros; rfl, ?_, by intro x hx; simp at hx, by simp [numBelow]⟩, by simp, ?_, by simp, .start⟩
  · intro v x hv; cases hv
  · intro w hw; cases hw

end Amg
end Istl
