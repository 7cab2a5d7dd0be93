import Verif.Lemmas.Selection2
import Verif.Lemmas.Aggregator2

/-! # Steps of the growth -/

namespace Istl
namespace Amg

open MatMat

theorem conn_mem (x y : Agg) (l : List Agg) : y ∈ connInsert x l ↔ y = x ∨ y ∈ l := by
  unfold connInsert
  split
  · rename_i h
    constructor
    · exact Or.inr
    · rintro (rfl | h') <;> assumption
  · simp

theorem conn_nodup (x : Agg) {l : List Agg} (h : l.Nodup) : (connInsert x l).Nodup := by
  unfold connInsert
  split
  · exact h
  · rename_i hx; exact List.nodup_cons.mpr ⟨hx, h⟩

theorem absorb_nodup (ts : List Nat) : ∀ (st : AgSt), st.conn.Nodup → (ts.foldl addEdge st).conn.Nodup := by
  induction ts with
  | nil => intro st h; exact h
  | cons t ts ih =>
    intro st h
    have h2 : (addEdge st t).conn = connInsert (st.agg t) st.conn := by unfold addEdge; split <;> rfl
    exact ih _ (by rw [h2]; exact conn_nodup _ h)

theorem addSteps_nodup (G : Graph) (vs : List Nat) : ∀ (st : AgSt), st.conn.Nodup → (vs.foldl (addStep G) st).conn.Nodup := by
  induction vs with
  | nil => intro st h; exact h
  | cons v vs ih =>
    intro st h
    exact ih _ (absorb_nodup _ _ h)

/-- what absorbing edges does -/
theorem absorb_full (ts : List Nat) : ∀ (st : AgSt), (ts.foldl addEdge st).agg = st.agg ∧ (ts.foldl addEdge st).id = st.id ∧
    (ts.foldl addEdge st).verts = st.verts ∧ (∀ x, x ∈ (ts.foldl addEdge st).conn ↔ x ∈ st.conn ∨ ∃ t ∈ ts, x = st.agg t) ∧
    ∀ t, (ts.foldl addEdge st).flag t = true ↔ st.flag t = true ∨ (st.agg t = .unagg ∧ t ∈ ts) := by
  induction ts with
  | nil => intro st; exact ⟨rfl, rfl, rfl, fun x => by simp, fun t => by simp⟩
  | cons t ts ih =>
    intro st
    obtain ⟨i1, i2, i3, i4, i5⟩ := ih (addEdge st t)
    have h1 : (addEdge st t).agg = st.agg := by unfold addEdge; split <;> rfl
    have h2 : (addEdge st t).conn = connInsert (st.agg t) st.conn := by unfold addEdge; split <;> rfl
    have h3 : (addEdge st t).id = st.id := by unfold addEdge; split <;> rfl
    have h4 : (addEdge st t).verts = st.verts := by unfold addEdge; split <;> rfl
    have h5 : ∀ w, (addEdge st t).flag w = true ↔ st.flag w = true ∨ (st.agg w = .unagg ∧ w = t) := by
      intro w
      unfold addEdge
      split
      · rename_i hc
        by_cases hw : w = t
        · subst hw; simp [upd_same, hc.1]
        · dsimp only; rw [upd_ne _ _ hw]; simp [hw]
      · rename_i hc
        by_cases hw : w = t
        · subst hw
          constructor
          · exact Or.inl
          · rintro (h | ⟨h, _⟩)
            · exact h
            · by_contra hf
              exact hc ⟨h, by simpa using hf⟩
        · simp [hw]
    rw [List.foldl_cons]
    refine ⟨i1.trans h1, i2.trans h3, i3.trans h4, fun x => ?_, fun w => ?_⟩
    · rw [i4, h2, conn_mem, h1]
      simp only [List.mem_cons, exists_eq_or_imp]
      tauto
    · rw [i5, h5, h1]
      simp only [List.mem_cons]
      tauto

/-- What adding the vertices one after the other does, apart from the front. -/
theorem addSteps_full (G : Graph) : ∀ (vs : List Nat) (st : AgSt),
    (vs.foldl (addStep G) st).id = st.id ∧
    (∀ v, (vs.foldl (addStep G) st).agg v = if v ∈ vs then .id st.id.toNat else st.agg v) ∧
    (∀ x, x ∈ (vs.foldl (addStep G) st).conn ↔ x ∈ st.conn ∨
      ∃ l v r, vs = l ++ v :: r ∧ ∃ t ∈ G.adj v, x = if t ∈ l ++ [v] then .id st.id.toNat else st.agg t) ∧
    ∀ t, (vs.foldl (addStep G) st).flag t = true ↔ (st.flag t = true ∧ t ∉ vs) ∨
      ((vs.foldl (addStep G) st).agg t = .unagg ∧ ∃ v ∈ vs, t ∈ G.adj v)
  | [], st => by simp
  | v :: vs, st => by
    obtain ⟨a1, a2, -, a4, a5⟩ := absorb_full (G.adj v)
      { st with verts := setInsert v st.verts, flag := upd st.flag v false, agg := upd st.agg v st.cur }
    have e : addStep G st v = (G.adj v).foldl addEdge
      { st with verts := setInsert v st.verts, flag := upd st.flag v false, agg := upd st.agg v st.cur } := rfl
    rw [← e] at a1 a2 a4 a5
    dsimp only at a1 a2 a4 a5
    obtain ⟨i1, i2, i3, i4⟩ := addSteps_full G vs (addStep G st v)
    rw [List.foldl_cons]
    have hagg : ∀ w, (vs.foldl (addStep G) (addStep G st v)).agg w = if w ∈ v :: vs then .id st.id.toNat else st.agg w := by
      intro w
      rw [i2, a1, a2]
      by_cases hw : w ∈ vs
      · rw [if_pos hw, if_pos (by simp [hw])]
      · rw [if_neg hw]
        by_cases hwv : w = v
        · subst hwv; rw [upd_same, if_pos (by simp)]; rfl
        · rw [upd_ne _ _ hwv, if_neg (by simp [hw, hwv])]
    refine ⟨i1.trans a2, hagg, fun x => ?_, fun t => ?_⟩
    · rw [i3, a4, a1, a2]
      have hval : ∀ t, upd st.agg v st.cur t = if t ∈ [v] then .id st.id.toNat else st.agg t := by
        intro t
        by_cases h : t = v
        · subst h; rw [upd_same, if_pos (by simp)]; rfl
        · rw [upd_ne _ _ h, if_neg (by simp [h])]
      constructor
      · rintro ((h | ⟨t, ht, e⟩) | ⟨l, w, r, e1, t, ht, e2⟩)
        · exact Or.inl h
        · exact Or.inr ⟨[], v, vs, rfl, t, ht, by rw [e, hval]; rfl⟩
        · refine Or.inr ⟨v :: l, w, r, by rw [e1]; rfl, t, ht, ?_⟩
          rw [e2, hval]
          by_cases h1 : t ∈ l ++ [w]
          · rw [if_pos h1, if_pos (by simp at h1 ⊢; tauto)]
          · rw [if_neg h1]
            by_cases h2 : t = v
            · rw [if_pos (by simp [h2]), if_pos (by simp [h2])]
            · rw [if_neg (by simp [h2]), if_neg (by simp at h1 ⊢; tauto)]
      · rintro (h | ⟨l, w, r, e1, t, ht, e2⟩)
        · exact Or.inl (Or.inl h)
        · cases l with
          | nil =>
            simp only [List.nil_append, List.cons.injEq] at e1
            obtain ⟨rfl, rfl⟩ := e1
            exact Or.inl (Or.inr ⟨t, ht, by rw [e2, hval]; rfl⟩)
          | cons y l =>
            simp only [List.cons_append, List.cons.injEq] at e1
            obtain ⟨rfl, e1⟩ := e1
            refine Or.inr ⟨l, w, r, e1, t, ht, ?_⟩
            rw [e2, hval]
            by_cases h1 : t ∈ l ++ [w]
            · rw [if_pos h1, if_pos (by simp at h1 ⊢; tauto)]
            · rw [if_neg h1]
              by_cases h2 : t = v
              · rw [if_pos (by simp [h2]), if_pos (by simp [h2])]
              · rw [if_neg (by simp at h1 ⊢; tauto), if_neg (by simp [h2])]
    · rw [i4, a5]
      by_cases htv : t = v
      · subst htv
        have hne : (vs.foldl (addStep G) (addStep G st t)).agg t ≠ .unagg := by rw [hagg, if_pos (by simp)]; simp
        simp only [upd_same, AgSt.cur]
        simp [hne]
      · rw [upd_ne _ _ htv, upd_ne _ _ htv]
        have hun : (vs.foldl (addStep G) (addStep G st v)).agg t = .unagg ↔ t ∉ vs ∧ st.agg t = .unagg := by
          rw [hagg]
          by_cases hm : t ∈ vs
          · rw [if_pos (by simp [hm])]; simp [hm]
          · rw [if_neg (by simp [hm, htv])]; simp [hm]
        rw [hun]
        simp only [List.mem_cons, htv, false_or, exists_eq_or_imp]
        tauto

variable {G : Graph} {agg0 : Nat → Agg} {a sd : Nat} {st : AgSt}

/-- Free neighbours of the aggregate carry the front mark. -/
def Marked (G : Graph) (st : AgSt) : Prop := ∀ u ∈ st.verts, ∀ t ∈ G.adj u, st.agg t = .unagg → st.flag t = true

theorem GInv.trueFront (h : GInv G agg0 a sd st) (hm : Marked G st) : TrueFront G st := by
  refine ⟨h.2, fun t => ⟨fun ht => ?_, fun ⟨h1, u, hu, ht⟩ => ?_⟩⟩
  · obtain ⟨g1, g2, -, -, g5, -⟩ := h.1.fmem t ht
    exact ⟨by rw [h.1.aggv, if_neg g1, g2], g5⟩
  · have hnv : t ∉ st.verts := fun hc => by
      have := h.1.aggv t
      rw [if_pos hc, h1] at this; cases this
    have h0 : agg0 t = .unagg := by
      have := h.1.aggv t
      rw [if_neg hnv, h1] at this; exact this.symm
    rcases h.1.flagv t (hm u hu t ht h1) hnv h0 with h | h
    · exact h
    · simp at h

theorem Extends.marked {um : Bool} {vs : List Nat} {st' : AgSt} (h : Extends G um vs st st') (hm : Marked G st) : Marked G st' := by
  intro u hu t ht hun
  rw [h.flag]
  have htv : t ∉ vs := fun hc => by
    have := h.agg t
    rw [if_pos hc, hun] at this; cases this
  have h0 : st.agg t = .unagg := by
    have := h.agg t
    rw [if_neg htv, hun] at this; exact this.symm
  rcases (h.verts u).mp hu with h1 | h1
  · exact Or.inl ⟨hm u h1 t ht h0, fun _ => htv⟩
  · exact Or.inr ⟨hun, u, h1, ht⟩

theorem addMany_extends (hG : G.WF) (h : GInv G agg0 a sd st) {vs : List Nat} (hsub : vs.Sublist st.front) :
    Extends G true vs st (addMany G vs st) := by
  obtain ⟨i1, i2, i3, i4⟩ := addSteps_full G vs { st with front := setDifference st.front vs }
  exact ⟨i1, (h.addMany hG hsub).2.2, fun _ => (h.addMany hG hsub).1.1.asc, i2, i3,
    addSteps_nodup G vs { st with front := setDifference st.front vs }, fun t => by
    rw [show (true = true → t ∉ vs) ↔ t ∉ vs by simp]; exact i4 t⟩

theorem add1_full {v : Nat} {st' : AgSt} (e : add1 G v st = .ok st') : st'.id = st.id ∧ st'.verts = setInsert v st.verts ∧
    (∀ w, st'.agg w = if w ∈ [v] then .id st.id.toNat else st.agg w) ∧
    (∀ x, x ∈ st'.conn ↔ x ∈ st.conn ∨
      ∃ l w r, [v] = l ++ w :: r ∧ ∃ t ∈ G.adj w, x = if t ∈ l ++ [w] then .id st.id.toNat else st.agg t) ∧
    (∀ t, st'.flag t = true ↔ st.flag t = true ∨ (st'.agg t = .unagg ∧ t ∈ G.adj v)) ∧ (st.conn.Nodup → st'.conn.Nodup) := by
  have h0 : ∃ f, st' = { absorb G v { st with verts := setInsert v st.verts, agg := upd st.agg v st.cur, front := f } with
      front := sortFront (absorb G v { st with verts := setInsert v st.verts, agg := upd st.agg v st.cur, front := f }).front } := by
    unfold add1 at e
    dsimp only at e
    split at e
    · obtain ⟨f, _, h2⟩ := Res.bind_eq_ok.mp e
      cases h2
      exact ⟨f, rfl⟩
    · cases e
      exact ⟨st.front, rfl⟩
  obtain ⟨f, rfl⟩ := h0
  obtain ⟨a1, a2, a3, a4, a5⟩ := absorb_full (G.adj v)
    { st with verts := setInsert v st.verts, agg := upd st.agg v st.cur, front := f }
  have hval : ∀ t, upd st.agg v st.cur t = if t ∈ [v] then .id st.id.toNat else st.agg t := by
    intro t
    by_cases h : t = v
    · subst h; rw [upd_same, if_pos (by simp)]; rfl
    · rw [upd_ne _ _ h, if_neg (by simp [h])]
  refine ⟨a2, a3, fun w => ?_, fun x => ?_, fun t => ?_, absorb_nodup (G.adj v)
    { st with verts := setInsert v st.verts, agg := upd st.agg v st.cur, front := f }⟩
  · change (absorb G v _).agg w = _
    unfold absorb; rw [a1]; exact hval w
  · change x ∈ (absorb G v _).conn ↔ _
    unfold absorb; rw [a4]
    refine or_congr_right ⟨fun ⟨t, ht, e⟩ => ⟨[], v, [], rfl, t, ht, e.trans (hval t)⟩, ?_⟩
    rintro ⟨l, w, r, e1, t, ht, e2⟩
    cases l with
    | nil =>
      simp only [List.nil_append, List.cons.injEq] at e1
      obtain ⟨rfl, rfl⟩ := e1
      exact ⟨t, ht, e2.trans (hval t).symm⟩
    | cons y l => simp at e1
  · change (absorb G v _).flag t = true ↔ _ ∨ ((absorb G v _).agg t = _ ∧ _)
    unfold absorb; rw [a5, a1]

theorem add1_extends (h : GInv G agg0 a sd st) {v : Nat} {st' : AgSt} (e : add1 G v st = .ok st') :
    Extends G false [v] st st' := by
  obtain ⟨i1, i2, i3, i4, i5, i6⟩ := add1_full e
  refine ⟨i1, fun w => ?_, fun _ => by rw [i2]; exact (setInsert_spec v _ h.1.asc).1, i3, i4, i6, fun t => ?_⟩
  · rw [i2, (setInsert_spec v _ h.1.asc).2]; simp [or_comm]
  · rw [i5]; simp

theorem seed_marked {v : Nat} {st' : AgSt} (e : seed G v st = .ok st') : Marked G st' := by
  unfold seed at e
  obtain ⟨-, i2, -, -, i5, -⟩ := add1_full e
  intro u hu t ht hun
  rw [i2] at hu
  simp [setInsert] at hu
  subst hu
  exact (i5 t).mpr (Or.inr ⟨hun, ht⟩)

theorem roundOk_spec (P : Props) (c : Crit) (v : Nat) : roundOk G P c st v = decide (Surrounded G P st v) := by
  unfold roundOk Surrounded
  rw [twoWay_spec, oneWay_spec, neighbours_spec]
  simp only [admissible, Bool.true_eq_false, or_false]
  by_cases h1 : P.isolated v = true
  · simp [h1]
  · rw [if_neg h1]
    by_cases h2 : mutualEdges G P st v = 0 ∧ dependEdges G P st v = 0
    · rw [if_pos h2]; simp [h2]
    · rw [if_neg h2]
      by_cases h3 : coupling G P (fun t => st.agg t = .unagg) v ≥ coupling G P (fun t => st.agg t = st.cur) v
      · rw [if_pos h3]
        refine (decide_eq_false ?_).symm
        rintro ⟨-, -, h⟩
        exact absurd h (not_lt.mpr h3)
      · rw [if_neg h3, if_neg (by simp [distance])]
        refine (decide_eq_true ?_).symm
        exact ⟨by simpa using h1, by omega, not_le.mp h3⟩

theorem grow_spec (hG : G.WF) (P : Props) (c : Crit) (hc : c.minSize ≤ c.maxSize) (hdist : 0 < c.maxDistance)
    (hdeg : ∀ v, v < G.n → (G.adj v).length < 2147483647) : ∀ (fuel dist : Nat) (st st' : AgSt), dist = 0 →
    GInv G agg0 a sd st → Marked G st → grow G P c sd fuel dist st = some st' →
    Grows G P c st st' ∧ GInv G agg0 a sd st' ∧ Marked G st'
  | 0, _, _, _, _, _, _, h => by cases h
  | fuel + 1, dist, st, st', hd0, h, hm, e => by
    have hcs : candidates G P st = wanted G P st := candidates_spec fun v hv => hdeg v (h.1.fmem v hv).2.2.1
    unfold grow at e
    dsimp only at e
    by_cases hl : st.verts.length < c.minSize ∧ dist < c.maxDistance
    · rw [if_pos hl, hcs] at e
      by_cases hw : (wanted G P st).length = 0
      · rw [if_pos hw] at e
        cases e
        exact ⟨.stop (fun hc => hc.2 (List.length_eq_zero_iff.mp hw)), h, hm⟩
      · rw [if_neg hw] at e
        have hroom : room c st.verts.length = c.maxSize - st.verts.length := by
          unfold room; rw [if_pos (by omega)]
        rw [hroom] at e
        have hsub : ((wanted G P st).take (c.maxSize - st.verts.length)).Sublist st.front := by
          rw [← hcs]; exact (List.take_sublist _ _).trans (candidates_sublist G P st)
        have hx := addMany_extends hG h hsub
        have h1 := (h.addMany hG hsub).1
        have hm1 := hx.marked hm
        obtain ⟨g1, g2, g3⟩ := grow_spec hG P c hc hdist hdeg fuel (distance sd) _ st' rfl h1 hm1 e
        exact ⟨.step ⟨hl.1, fun hc => hw (by rw [hc]; rfl)⟩ ⟨hx, h1.trueFront hm1⟩ g1, g2, g3⟩
    · rw [if_neg hl] at e
      cases e
      exact ⟨.stop (fun hc => hl ⟨hc.1, by omega⟩), h, hm⟩

theorem growIso_spec (hG : G.WF) (c : Crit) : ∀ (fuel : Nat) (st st' : AgSt),
    GInv G agg0 a sd st → Marked G st → growIso G c [] fuel st = some (.ok st') →
    GrowsIsolated G c st st' ∧ GInv G agg0 a sd st' ∧ Marked G st'
  | 0, _, _, _, _, h => by cases h
  | fuel + 1, st, st', h, hm, e => by
    unfold growIso at e
    by_cases hl : st.verts.length < c.minSize ∧ st.conn.length < c.maxConn
    · rw [if_pos hl] at e
      cases hw : wantedIsolated G st with
      | none =>
        rw [isoCandidate_spec, hw] at e
        cases e
        exact ⟨.stop (fun hc => hc.2.2 hw), h, hm⟩
      | some v =>
        have hmem : v ∈ st.front := isoCandidate_mem G c st [] (by rw [isoCandidate_spec, hw])
        obtain ⟨st1, e1, h1, -, -⟩ := h.add1 hG hmem
        rw [isoCandidate_spec, hw] at e
        dsimp only at e
        rw [e1] at e
        dsimp only at e
        have hx := add1_extends h e1
        have hm1 := hx.marked hm
        obtain ⟨g1, g2, g3⟩ := growIso_spec hG c fuel st1 st' h1 hm1 e
        exact ⟨.step ⟨hl.1, hl.2, by rw [hw]; simp⟩ ⟨v, hw, hx, h1.trueFront hm1⟩ g1, g2, g3⟩
    · rw [if_neg hl] at e
      cases e
      exact ⟨.stop (fun hc => hl ⟨hc.1, hc.2.1⟩), h, hm⟩

theorem rounding_spec (hG : G.WF) (P : Props) (c : Crit) (hsd : P.isolated sd = false) : ∀ (fuel : Nat) (st st' : AgSt),
    GInv G agg0 a sd st → Marked G st → rounding G P c sd fuel st = some st' →
    Rounds G P c st st' ∧ GInv G agg0 a sd st' ∧ Marked G st'
  | 0, _, _, _, _, h => by cases h
  | fuel + 1, st, st', h, hm, e => by
    unfold rounding at e
    by_cases hl : P.isolated sd = false ∧ st.verts.length < c.maxSize
    · rw [if_pos hl] at e
      cases hw : st.front.find? (roundOk G P c st) with
      | none =>
        rw [hw] at e
        cases e
        refine ⟨.stop ?_, h, hm⟩
        rintro ⟨-, v, hv, hs⟩
        have := List.find?_eq_none.mp hw v hv
        rw [roundOk_spec] at this
        simp [hs] at this
      | some v =>
        rw [hw] at e
        dsimp only at e
        have hroom : room c st.verts.length = (c.maxSize - st.verts.length - 1) + 1 := by
          unfold room; rw [if_pos (by omega)]; omega
        have ht : [v].take (room c st.verts.length) = [v] := by rw [hroom]; simp
        rw [ht] at e
        obtain ⟨hv, l, r, hlr, hl2⟩ := List.find?_eq_some_iff_append.mp hw
        rw [roundOk_spec, decide_eq_true_iff] at hv
        have hmem : v ∈ st.front := by rw [hlr]; simp
        have hsub : [v].Sublist st.front := List.singleton_sublist.mpr hmem
        have hx := addMany_extends hG h hsub
        have h1 := (h.addMany hG hsub).1
        have hm1 := hx.marked hm
        obtain ⟨g1, g2, g3⟩ := rounding_spec hG P c hsd fuel _ st' h1 hm1 e
        refine ⟨.step ⟨hl.2, v, hmem, hv⟩ ⟨l, v, r, hlr, fun u hu => ?_, hv, hx, h1.trueFront hm1⟩ g1, g2, g3⟩
        have := hl2 u hu
        rw [roundOk_spec] at this
        simpa using this
    · rw [if_neg hl] at e
      cases e
      exact ⟨.stop (fun hc => hl ⟨hsd, hc.1⟩), h, hm⟩

end Amg
end Istl
