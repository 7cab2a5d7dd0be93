import Verif.Lemmas.Selection4

/-! # The rules of the aggregation determine its result -/

namespace Istl
namespace Amg

/-- States that differ at most in the order of the connected aggregates. -/
structure Same (s t : AgSt) : Prop where
  agg : s.agg = t.agg
  front : s.front = t.front
  flag : s.flag = t.flag
  id : s.id = t.id
  conn : ∀ x, x ∈ s.conn ↔ x ∈ t.conn
  verts : s.verts = t.verts
  nd1 : s.conn.Nodup
  nd2 : t.conn.Nodup
  asc : s.verts.Pairwise (· < ·)

theorem asc_ext {l r : List Nat} (hl : l.Pairwise (· < ·)) (hr : r.Pairwise (· < ·)) (h : ∀ x, x ∈ l ↔ x ∈ r) : l = r := by
  have p : l.Perm r := (List.perm_ext_iff_of_nodup (hl.imp fun h => Nat.ne_of_lt h) (hr.imp fun h => Nat.ne_of_lt h)).mpr h
  exact p.eq_of_pairwise (fun a b _ _ h1 h2 => absurd h1 (by omega)) hl hr

theorem flag_ext {f g : Nat → Bool} (h : ∀ t, f t = true ↔ g t = true) : f = g := by
  funext t
  have := h t
  cases hf : f t <;> cases hg : g t <;> simp [hf, hg] at this ⊢

variable {G : Graph} {P : Props} {c : Crit} {s t s' t' : AgSt}

theorem Same.connLength (h : Same s t) : s.conn.length = t.conn.length :=
  ((List.perm_ext_iff_of_nodup h.nd1 h.nd2).mpr h.conn).length_eq

theorem Same.mutual (h : Same s t) : mutualEdges G P s = mutualEdges G P t := by
  funext v; unfold mutualEdges; rw [h.agg, h.id]

theorem Same.depend (h : Same s t) : dependEdges G P s = dependEdges G P t := by
  funext v; unfold dependEdges; rw [h.agg, h.id]

theorem Same.familiarity (h : Same s t) : familiarity G s = familiarity G t := by
  funext v; unfold Amg.familiarity knownEdges; simp only [h.agg, h.conn]

theorem Same.frontEdges (h : Same s t) : frontEdges G s = frontEdges G t := by
  funext v; unfold Amg.frontEdges; rw [h.flag]

theorem Same.wanted (h : Same s t) : wanted G P s = wanted G P t := by
  unfold Amg.wanted mutualBest mutualFront dependFront
  rw [h.mutual, h.depend, h.familiarity, h.frontEdges, h.front]

theorem Same.wantedIsolated (h : Same s t) : wantedIsolated G s = wantedIsolated G t := by
  unfold Amg.wantedIsolated
  rw [h.familiarity, h.frontEdges, h.front]

theorem Same.surrounded (h : Same s t) (v : Nat) : Surrounded G P s v ↔ Surrounded G P t v := by
  unfold Surrounded
  rw [h.mutual, h.depend]
  simp only [h.agg, h.id]

theorem Same.extends {um : Bool} {vs : List Nat} (h : Same s t) (hs : Extends G um vs s s') (ht : Extends G um vs t t')
    (fs : TrueFront G s') (ft : TrueFront G t') : Same s' t' := by
  have hagg : s'.agg = t'.agg := by funext v; rw [hs.agg, ht.agg, h.agg, h.id]
  have hv : ∀ v, v ∈ s'.verts ↔ v ∈ t'.verts := fun v => by rw [hs.verts, ht.verts, h.verts]
  have hverts : s'.verts = t'.verts := asc_ext (hs.asc h.asc) (ht.asc (h.verts ▸ h.asc)) hv
  refine ⟨hagg, ?_, ?_, by rw [hs.id, ht.id, h.id], fun x => ?_, hverts, hs.nodup h.nd1, ht.nodup h.nd2, hs.asc h.asc⟩
  · refine asc_ext fs.1 ft.1 fun x => ?_
    rw [fs.2, ft.2, hagg, hverts]
  · refine flag_ext fun x => ?_
    rw [hs.flag, ht.flag, h.flag, hagg]
  · rw [hs.conn, ht.conn, h.conn, h.agg, h.id]

theorem RunsWhile.same {more : AgSt → Prop} {next : AgSt → AgSt → Prop} (hm : ∀ {s t}, Same s t → (more s ↔ more t))
    (hn : ∀ {s t s' t'}, Same s t → next s s' → next t t' → Same s' t') {s s' : AgSt} (hs : RunsWhile more next s s') :
    ∀ {t t' : AgSt}, Same s t → RunsWhile more next t t' → Same s' t' := by
  induction hs with
  | stop h =>
    intro t t' hst ht
    cases ht with
    | stop _ => exact hst
    | step h' _ _ => exact absurd ((hm hst).mpr h') h
  | step h h1 _ ih =>
    intro t t' hst ht
    cases ht with
    | stop h' => exact absurd ((hm hst).mp h) h'
    | step _ h2 h3 => exact ih (hn hst h1 h2) h3

theorem split_unique {p : Nat → Prop} {l l' r r' : List Nat} {v w : Nat} (e : l ++ v :: r = l' ++ w :: r') (h1 : ∀ u ∈ l, ¬ p u)
    (h2 : ∀ u ∈ l', ¬ p u) (hv : p v) (hw : p w) : v = w := by
  rcases List.append_eq_append_iff.mp e with ⟨m, e1, e2⟩ | ⟨m, e1, e2⟩
  · cases m with
    | nil => simpa using congrArg List.head? e2
    | cons x m =>
      simp only [List.cons_append, List.cons.injEq] at e2
      exact absurd (e2.1 ▸ hv) (h2 x (by rw [e1]; simp))
  · cases m with
    | nil => exact (by simpa using congrArg List.head? e2 : w = v).symm
    | cons x m =>
      simp only [List.cons_append, List.cons.injEq] at e2
      exact absurd (e2.1 ▸ hw) (h1 x (by rw [e1]; simp))

theorem Same.grows (h : Same s t) (hs : Grows G P c s s') (ht : Grows G P c t t') : Same s' t' := by
  refine RunsWhile.same (fun h => ?_) (fun h h1 h2 => ?_) hs h ht
  · rw [h.verts, h.wanted]
  · rw [h.wanted, h.verts] at h1
    exact h.extends h1.1 h2.1 h1.2 h2.2

theorem Same.growsIsolated (h : Same s t) (hs : GrowsIsolated G c s s') (ht : GrowsIsolated G c t t') : Same s' t' := by
  refine RunsWhile.same (fun h => ?_) (fun h h1 h2 => ?_) hs h ht
  · rw [h.verts, h.wantedIsolated, h.connLength]
  · obtain ⟨v, e1, a1, a2⟩ := h1
    obtain ⟨w, e2, b1, b2⟩ := h2
    rw [h.wantedIsolated, e2] at e1
    cases e1
    exact h.extends a1 b1 a2 b2

theorem Same.rounds (h : Same s t) (hs : Rounds G P c s s') (ht : Rounds G P c t t') : Same s' t' := by
  refine RunsWhile.same (fun h => ?_) (fun h h1 h2 => ?_) hs h ht
  · rw [h.verts, h.front]
    simp only [h.surrounded]
  · obtain ⟨l, v, r, e1, f1, g1, a1, a2⟩ := h1
    obtain ⟨l', w, r', e2, f2, g2, b1, b2⟩ := h2
    rw [h.front, e2] at e1
    simp only [h.surrounded] at f1 g1
    obtain rfl := split_unique e1 f2 f1 g2 g1
    exact h.extends a1 b1 a2 b2

theorem Same.settles (h : Same s t) {sd : Nat} (hs : Settles G P c sd s s') (ht : Settles G P c sd t t') : Same s' t' := by
  have hj : ∀ v, Joinable P s sd v ↔ Joinable P t sd v := fun v => by unfold Joinable; rw [h.agg]
  cases hs with
  | keep h1 =>
    cases ht with
    | keep _ => exact h
    | @join l r v a1 a2 a3 a4 a5 a6 =>
      refine absurd ⟨by rw [h.verts]; exact a1, a2, a3, v, by rw [a4]; simp, (hj v).mpr a6⟩ h1
  | @join l r v a1 a2 a3 a4 a5 a6 =>
    cases ht with
    | keep h1 => exact absurd ⟨by rw [← h.verts]; exact a1, a2, a3, v, by rw [a4]; simp, (hj v).mp a6⟩ h1
    | @join l' r' w b1 b2 b3 b4 b5 b6 =>
      simp only [hj] at a5 a6
      obtain rfl := split_unique (a4.symm.trans b4) a5 b5 a6 b6
      exact ⟨by dsimp only; rw [h.agg], h.front, h.flag, by dsimp only; rw [h.id], h.conn, h.verts, h.nd1, h.nd2, h.asc⟩

/-- The part of a state that survives the end of an aggregate. -/
structure Base (s t : AgSt) : Prop where
  agg : s.agg = t.agg
  id : s.id = t.id
  flags : ∀ v, (s.flag v = true ∧ v ∉ s.front) ↔ (t.flag v = true ∧ v ∉ t.front)

theorem Same.base (h : Same s t) : Base s t := ⟨h.agg, h.id, fun v => by rw [h.flag, h.front]⟩

theorem Base.cleared (h : Base s t) (hs : Cleared s s') (ht : Cleared t t') :
    s'.agg = t'.agg ∧ s'.id = t'.id ∧ s'.front = [] ∧ t'.front = [] ∧ s'.flag = t'.flag := by
  obtain ⟨a1, a2, a3, a4⟩ := hs
  obtain ⟨b1, b2, b3, b4⟩ := ht
  exact ⟨by rw [a1, b1, h.agg], by rw [a2, b2, h.id], a3, b3, flag_ext fun v => by rw [a4, b4, h.flags]⟩

theorem Base.seeded (h : Base s t) {s0 t0 s1 t1 : AgSt} {v : Nat} (hs : Cleared s s0) (ht : Cleared t t0)
    (h1 : Seeded G v s0 s1) (h2 : Seeded G v t0 t1) : Same s1 t1 := by
  obtain ⟨a1, a2, a3, a4, a5⟩ := h.cleared hs ht
  refine Same.extends ?_ h1.1 h2.1 h1.2 h2.2
  refine ⟨a1, a3.trans a4.symm, a5, ?_, fun _ => Iff.rfl, rfl, List.nodup_singleton _, List.nodup_singleton _, List.Pairwise.nil⟩
  dsimp only
  rw [a2]

theorem aggregation_base {i : Nat} (hs : Aggregation G P c i s) : ∀ {t : AgSt}, Aggregation G P c i t → Base s t := by
  induction hs with
  | start =>
    intro t ht
    cases ht
    exact ⟨rfl, rfl, fun _ => Iff.rfl⟩
  | @taken i st h1 h2 ih =>
    intro t ht
    cases ht with
    | taken g1 _ => exact ih g1
    | skipped g1 g2 _ _ => exact absurd ((congrFun (ih g1).agg i).trans g2) h2
    | isolated g1 g2 _ _ _ _ _ _ => exact absurd ((congrFun (ih g1).agg i).trans g2) h2
    | grown g1 g2 _ _ _ _ _ _ _ => exact absurd ((congrFun (ih g1).agg i).trans g2) h2
  | @skipped i st s0 h1 h2 h3 h4 ih =>
    intro t ht
    cases ht with
    | taken g1 g2 => exact absurd ((congrFun (ih g1).agg i).symm.trans h2) g2
    | skipped g1 _ _ g4 =>
      obtain ⟨a1, a2, a3, a4, a5⟩ := (ih g1).cleared h4 g4
      exact ⟨by dsimp only; rw [a1], a2, fun v => by dsimp only; rw [a3, a4, a5]⟩
    | isolated _ _ g3 g4 g5 _ _ _ => simp [g3, g4, g5] at h3
    | grown _ _ g3 g4 _ _ _ _ _ => simp [g3, g4] at h3
  | @isolated i st s0 s1 s2 h1 h2 h3 h4 h5 h6 h7 h8 ih =>
    intro t ht
    cases ht with
    | taken g1 g2 => exact absurd ((congrFun (ih g1).agg i).symm.trans h2) g2
    | skipped _ _ g3 _ => simp [h3, h4, h5] at g3
    | isolated g1 _ _ _ _ g6 g7 g8 => exact (((ih g1).seeded h6 g6 h7 g7).growsIsolated h8 g8).base
    | grown _ _ _ g4 _ _ _ _ _ => rw [h4] at g4; cases g4
  | @grown i st s0 s1 s2 s3 s4 h1 h2 h3 h4 h5 h6 h7 h8 h9 ih =>
    intro t ht
    cases ht with
    | taken g1 g2 => exact absurd ((congrFun (ih g1).agg i).symm.trans h2) g2
    | skipped _ _ g3 _ => simp [h3, h4] at g3
    | isolated _ _ _ g4 _ _ _ _ => rw [h4] at g4; cases g4
    | grown g1 _ _ _ g5 g6 g7 g8 g9 =>
      exact (((((ih g1).seeded h5 g5 h6 g6).grows h7 g7).rounds h8 g8).settles h9 g9).base

end Amg
end Istl
