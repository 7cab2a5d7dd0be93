import Verif.Model.Aggregator
import Verif.Spec.Aggregates
import Verif.Lemmas.MatMat
import Verif.Lemmas.Bfs

/-! Invariant of a growing aggregate. -/

namespace Istl
namespace Amg
open MatMat

/-- State while aggregate `a` grows from `sd`: `agg0` is the map before, `rem` are front vertices taken out of the list that are about
to be added. -/
structure MInv (G : Graph) (agg0 : Nat → Agg) (a sd : Nat) (rem : List Nat) (st : AgSt) : Prop where
  idv : st.id = (a : Int)
  aggv : ∀ v, st.agg v = if v ∈ st.verts then .id a else agg0 v
  un : ∀ v ∈ st.verts, agg0 v = .unagg ∧ v < G.n
  asc : st.verts.Pairwise (· < ·)
  reach : ∀ v ∈ st.verts, Relation.ReflTransGen (fun u t => t ∈ G.adj u ∧ t ∈ st.verts) sd v
  fnd : st.front.Nodup
  fmem : ∀ v ∈ st.front, v ∉ st.verts ∧ agg0 v = .unagg ∧ v < G.n ∧ st.flag v = true ∧ (∃ u ∈ st.verts, v ∈ G.adj u) ∧ v ∉ rem
  rnd : rem.Nodup
  rmem : ∀ v ∈ rem, v ∉ st.verts ∧ agg0 v = .unagg ∧ v < G.n ∧ st.flag v = true ∧ (∃ u ∈ st.verts, v ∈ G.adj u)
  flagv : ∀ v, st.flag v = true → v ∉ st.verts → agg0 v = .unagg → v ∈ st.front ∨ v ∈ rem

theorem rtg_mono {r p : Nat → Nat → Prop} (h : ∀ u t, r u t → p u t) {x y : Nat} (hr : Relation.ReflTransGen r x y) :
    Relation.ReflTransGen p x y := by
  induction hr with
  | refl => exact .refl
  | tail _ hs ih => exact ih.tail (h _ _ hs)

variable {G : Graph} {agg0 : Nat → Agg} {a sd : Nat} {rem : List Nat} {st : AgSt}

theorem MInv.edge (hG : G.WF) (h : MInv G agg0 a sd rem st) {v t : Nat} (hv : v ∈ st.verts) (ht : t ∈ G.adj v) :
    MInv G agg0 a sd rem (addEdge st t) ∧ (addEdge st t).verts = st.verts := by
  unfold addEdge
  split
  · rename_i hc
    have hnv : t ∉ st.verts := by
      intro hm
      have := h.aggv t
      rw [if_pos hm, hc.1] at this
      cases this
    have hun : agg0 t = .unagg := by
      have := h.aggv t
      rw [if_neg hnv, hc.1] at this
      exact this.symm
    have htn : t < G.n := hG v (h.un v hv).2 t ht
    have hnf : t ∉ st.front := fun hm => by
      have := (h.fmem t hm).2.2.2.1
      rw [hc.2] at this; cases this
    have hnr : t ∉ rem := fun hm => by
      have := (h.rmem t hm).2.2.2.1
      rw [hc.2] at this; cases this
    refine ⟨⟨h.idv, h.aggv, h.un, h.asc, h.reach, ?_, ?_, h.rnd, ?_, ?_⟩, rfl⟩
    · dsimp only
      rw [List.nodup_append]
      refine ⟨h.fnd, by simp, ?_⟩
      intro x hx y hy hxy
      simp only [List.mem_singleton] at hy
      subst hy; subst hxy
      exact hnf hx
    · intro w hw
      dsimp only at hw ⊢
      rcases List.mem_append.mp hw with hw | hw
      · obtain ⟨h1, h2, h3, h4, h5, h6⟩ := h.fmem w hw
        refine ⟨h1, h2, h3, ?_, h5, h6⟩
        by_cases hwt : w = t
        · subst hwt; rw [upd_same]
        · rw [upd_ne _ _ hwt]; exact h4
      · simp only [List.mem_singleton] at hw
        subst hw
        exact ⟨hnv, hun, htn, by rw [upd_same], ⟨v, hv, ht⟩, hnr⟩
    · intro w hw
      obtain ⟨h1, h2, h3, h4, h5⟩ := h.rmem w hw
      refine ⟨h1, h2, h3, ?_, h5⟩
      dsimp only
      by_cases hwt : w = t
      · subst hwt; rw [upd_same]
      · rw [upd_ne _ _ hwt]; exact h4
    · intro w hw h1 h2
      dsimp only at hw ⊢
      by_cases hwt : w = t
      · subst hwt; exact Or.inl (by simp)
      · rw [upd_ne _ _ hwt] at hw
        rcases h.flagv w hw h1 h2 with h3 | h3
        · exact Or.inl (List.mem_append_left _ h3)
        · exact Or.inr h3
  · exact ⟨⟨h.idv, h.aggv, h.un, h.asc, h.reach, h.fnd, h.fmem, h.rnd, h.rmem, h.flagv⟩, rfl⟩

theorem MInv.edges (hG : G.WF) {v : Nat} : ∀ (ts : List Nat) {st : AgSt}, MInv G agg0 a sd rem st → v ∈ st.verts →
    (∀ t ∈ ts, t ∈ G.adj v) → MInv G agg0 a sd rem (ts.foldl addEdge st) ∧ (ts.foldl addEdge st).verts = st.verts
  | [], st, h, _, _ => ⟨h, rfl⟩
  | t :: ts, st, h, hv, hts => by
    obtain ⟨h1, e1⟩ := h.edge hG hv (hts t (by simp))
    obtain ⟨h2, e2⟩ := MInv.edges hG ts h1 (by rw [e1]; exact hv) (fun w hw => hts w (by simp [hw]))
    exact ⟨h2, e2.trans e1⟩

theorem setInsert_length (v : Nat) (l : List Nat) (h : l.Pairwise (· < ·)) (hv : v ∉ l) : (setInsert v l).length = l.length + 1 := by
  obtain ⟨h1, h2⟩ := setInsert_spec v l h
  have n1 : (setInsert v l).Nodup := h1.imp (fun h => Nat.ne_of_lt h)
  have n2 : (v :: l).Nodup := List.nodup_cons.mpr ⟨hv, h.imp (fun h => Nat.ne_of_lt h)⟩
  have : (setInsert v l).Perm (v :: l) := (List.perm_ext_iff_of_nodup n1 n2).mpr (by
    intro x; rw [h2 x]; simp)
  rw [this.length_eq]; rfl

/-- Adding one vertex: `v` is the seed or a neighbour of the aggregate; `flag'` may differ from the old flags at `v` only. -/
theorem MInv.absorb (hG : G.WF) {v : Nat} {front' : List Nat} {flag' : Nat → Bool}
    (h : MInv G agg0 a sd rem { st with front := front', flag := flag' })
    (hnv : v ∉ st.verts) (hun : agg0 v = .unagg) (hvn : v < G.n) (hr : v = sd ∨ (∃ u ∈ st.verts, v ∈ G.adj u))
    (hnf : v ∉ front') (hnr : v ∉ rem) (f'' : Nat → Bool) (hf'' : ∀ w, w ≠ v → f'' w = flag' w) :
    MInv G agg0 a sd rem (Amg.absorb G v { st with verts := setInsert v st.verts, agg := upd st.agg v st.cur, front := front', flag := f'' }) ∧
      (Amg.absorb G v { st with verts := setInsert v st.verts, agg := upd st.agg v st.cur, front := front', flag := f'' }).verts =
        setInsert v st.verts := by
  obtain ⟨i1, i2⟩ := setInsert_spec v st.verts h.asc
  have hid : st.id = (a : Int) := h.idv
  refine MInv.edges hG (v := v) (G.adj v) (st := { st with verts := setInsert v st.verts, agg := upd st.agg v st.cur, front := front', flag := f'' })
    ?_ ((i2 v).mpr (Or.inl rfl)) (fun _ ht => ht)
  refine ⟨h.idv, ?_, ?_, i1, ?_, h.fnd, ?_, h.rnd, ?_, ?_⟩
  · intro w
    dsimp only
    by_cases hw : w = v
    · subst hw
      rw [upd_same, if_pos ((i2 w).mpr (Or.inl rfl))]
      simp [AgSt.cur, hid]
    · rw [upd_ne _ _ hw]
      have := h.aggv w
      dsimp only at this
      rw [this]
      have : w ∈ setInsert v st.verts ↔ w ∈ st.verts := by rw [i2]; simp [hw]
      simp only [this]
  · intro w hw
    rcases (i2 w).mp hw with hw | hw
    · subst hw; exact ⟨hun, hvn⟩
    · exact h.un w hw
  · have hmono : ∀ w, Relation.ReflTransGen (fun u t => t ∈ G.adj u ∧ t ∈ st.verts) sd w →
        Relation.ReflTransGen (fun u t => t ∈ G.adj u ∧ t ∈ setInsert v st.verts) sd w := by
      intro w hw
      exact rtg_mono (fun u t h => ⟨h.1, (i2 t).mpr (Or.inr h.2)⟩) hw
    intro w hw
    rcases (i2 w).mp hw with hw | hw
    · subst hw
      rcases hr with hr | ⟨u, hu, huv⟩
      · subst hr; exact .refl
      · exact (hmono u (h.reach u hu)).tail ⟨huv, (i2 w).mpr (Or.inl rfl)⟩
    · exact hmono w (h.reach w hw)
  · intro w hw
    obtain ⟨h1, h2, h3, h4, ⟨u, hu, huv⟩, h6⟩ := h.fmem w hw
    have hwv : w ≠ v := fun hc => hnf (hc ▸ hw)
    refine ⟨?_, h2, h3, ?_, ⟨u, (i2 u).mpr (Or.inr hu), huv⟩, h6⟩
    · rw [i2]; exact not_or.mpr ⟨hwv, h1⟩
    · dsimp only; rw [hf'' w hwv]; exact h4
  · intro w hw
    obtain ⟨h1, h2, h3, h4, u, hu, huv⟩ := h.rmem w hw
    have hwv : w ≠ v := fun hc => hnr (hc ▸ hw)
    refine ⟨?_, h2, h3, ?_, u, (i2 u).mpr (Or.inr hu), huv⟩
    · rw [i2]; exact not_or.mpr ⟨hwv, h1⟩
    · dsimp only; rw [hf'' w hwv]; exact h4
  · intro w hw h1 h2
    dsimp only at hw h1
    rw [i2] at h1
    push Not at h1
    rw [hf'' w h1.1] at hw
    exact h.flagv w hw h1.2 h2

theorem sortFront_spec (l : List Nat) : (sortFront l).Perm l ∧ (l.Nodup → (sortFront l).Pairwise (· < ·)) := by
  have hp := List.mergeSort_perm l (fun a b => decide (a ≤ b))
  refine ⟨hp, ?_⟩
  intro hn
  have hs : (sortFront l).Pairwise (fun a b => decide (a ≤ b) = true) :=
    List.pairwise_mergeSort (fun a b c h1 h2 => by simp at *; omega) (fun a b => by simp; omega) l
  have hn' : (sortFront l).Nodup := hp.nodup_iff.mpr hn
  have := hs.and hn'
  refine this.imp ?_
  intro x y ⟨h1, h2⟩
  simp at h1
  omega

theorem MInv.sort (h : MInv G agg0 a sd rem st) : MInv G agg0 a sd rem { st with front := sortFront st.front } := by
  obtain ⟨hp, _⟩ := sortFront_spec st.front
  exact ⟨h.idv, h.aggv, h.un, h.asc, h.reach, hp.nodup_iff.mpr h.fnd, fun v hv => h.fmem v (hp.mem_iff.mp hv), h.rnd, h.rmem,
    fun v h1 h2 h3 => (h.flagv v h1 h2 h3).imp (fun h => hp.mem_iff.mpr h) id⟩

/-- the state between the steps of the growth -/
def GInv (G : Graph) (agg0 : Nat → Agg) (a sd : Nat) (st : AgSt) : Prop :=
  MInv G agg0 a sd [] st ∧ st.front.Pairwise (· < ·)

theorem eraseLower_spec (v : Nat) : ∀ (l : List Nat), l.Pairwise (· < ·) → v ∈ l →
    ∃ l', eraseLower v l = .ok l' ∧ l'.Sublist l ∧ ∀ x, x ∈ l' ↔ x ∈ l ∧ x ≠ v := by
  intro l hl hv
  have key : ∀ (l : List Nat), l.Pairwise (· < ·) → v ∈ l → (l.takeWhile (· < v)).length < l.length ∧
      ∀ x, x ∈ l.eraseIdx (l.takeWhile (· < v)).length ↔ x ∈ l ∧ x ≠ v := by
    intro l
    induction l with
    | nil => intro _ h; simp at h
    | cons c r ih =>
      intro hl hv
      rw [List.pairwise_cons] at hl
      by_cases hc : c < v
      · have hvr : v ∈ r := by
          rcases List.mem_cons.mp hv with h | h
          · omega
          · exact h
        obtain ⟨h1, h2⟩ := ih hl.2 hvr
        rw [List.takeWhile_cons_of_pos (by simpa using hc)]
        refine ⟨by simp; omega, ?_⟩
        intro x
        rw [List.length_cons, List.eraseIdx_cons_succ, List.mem_cons, h2 x, List.mem_cons]
        constructor
        · rintro (h | h)
          · exact ⟨Or.inl h, by omega⟩
          · exact ⟨Or.inr h.1, h.2⟩
        · rintro ⟨h | h, h'⟩
          · exact Or.inl h
          · exact Or.inr ⟨h, h'⟩
      · rw [List.takeWhile_cons_of_neg (by simpa using hc)]
        have hcv : c = v := by
          rcases List.mem_cons.mp hv with h | h
          · exact h.symm
          · have := hl.1 v h; omega
        refine ⟨by simp, ?_⟩
        intro x
        simp only [List.length_nil, List.eraseIdx_zero, List.tail_cons, List.mem_cons]
        constructor
        · intro h
          have := hl.1 x h
          exact ⟨Or.inr h, by omega⟩
        · rintro ⟨h | h, h'⟩
          · omega
          · exact h
  obtain ⟨h1, h2⟩ := key l hl hv
  refine ⟨l.eraseIdx (l.takeWhile (· < v)).length, ?_, List.eraseIdx_sublist _ _, h2⟩
  unfold eraseLower
  dsimp only
  rw [if_pos h1]

/-- `add(candidate)` of a front vertex -/
theorem GInv.add1 (hG : G.WF) (h : GInv G agg0 a sd st) {v : Nat} (hv : v ∈ st.front) :
    ∃ st', Amg.add1 G v st = .ok st' ∧ GInv G agg0 a sd st' ∧ st'.verts = setInsert v st.verts ∧ v ∉ st.verts := by
  obtain ⟨hm, hs⟩ := h
  obtain ⟨f', ef, hsub, hmem⟩ := eraseLower_spec v st.front hs hv
  obtain ⟨g1, g2, g3, g4, g5, g6⟩ := hm.fmem v hv
  have hlen : st.front.length ≠ 0 := by
    intro hc
    rw [List.length_eq_zero_iff.mp hc] at hv
    simp at hv
  have h1 : MInv G agg0 a sd [] { st with front := f', flag := upd st.flag v false } := by
    refine ⟨hm.idv, hm.aggv, hm.un, hm.asc, hm.reach, hm.fnd.sublist hsub, ?_, List.nodup_nil, by simp, ?_⟩
    · intro w hw
      obtain ⟨hw1, hw2⟩ := (hmem w).mp hw
      obtain ⟨q1, q2, q3, q4, q5⟩ := hm.fmem w hw1
      exact ⟨q1, q2, q3, by dsimp only; rw [upd_ne _ _ hw2]; exact q4, q5⟩
    · intro w hw q1 q2
      dsimp only at hw ⊢
      have hwv : w ≠ v := by
        rintro rfl
        rw [upd_same] at hw
        cases hw
      rw [upd_ne _ _ hwv] at hw
      rcases hm.flagv w hw q1 q2 with h | h
      · exact Or.inl ((hmem w).mpr ⟨h, hwv⟩)
      · simp at h
  obtain ⟨h2, e2⟩ := h1.absorb hG g1 g2 g3 (Or.inr g5) (fun hc => ((hmem v).mp hc).2 rfl) (by simp) st.flag
    (fun w hw => (upd_ne _ _ hw).symm)
  refine ⟨_, ?_, ⟨h2.sort, (sortFront_spec _).2 h2.fnd⟩, e2, g1⟩
  unfold Amg.add1
  rw [if_pos hlen, ef]
  rfl

/-- `seed` on an empty front without flags on unaggregated vertices -/
theorem seed_inv (hG : G.WF) (st : AgSt) (v a : Nat) (hid : st.id + 1 = (a : Int)) (hvn : v < G.n) (hun : st.agg v = .unagg)
    (hf : st.front = []) (hflag : ∀ w, st.flag w = true → st.agg w ≠ .unagg) :
    ∃ st', seed G v st = .ok st' ∧ GInv G st.agg a v st' ∧ st'.verts = [v] := by
  have h1 : MInv G st.agg a v [] { { st with conn := connInsert (.id v) [], verts := [], id := st.id + 1 } with
      front := [], flag := st.flag } := by
    refine ⟨hid, by simp, by simp, List.Pairwise.nil, by simp, List.nodup_nil, by simp, List.nodup_nil, by simp, ?_⟩
    intro w hw _ h2
    exact absurd h2 (hflag w hw)
  obtain ⟨h2, e2⟩ := h1.absorb hG (v := v) (by simp) hun hvn (Or.inl rfl) (by simp) (by simp) st.flag (fun _ _ => rfl)
  refine ⟨_, ?_, ⟨h2.sort, (sortFront_spec _).2 h2.fnd⟩, ?_⟩
  · unfold seed Amg.add1
    dsimp only
    rw [hf]
    rfl
  · dsimp only
    rw [e2]
    simp [setInsert]

theorem setDifference_spec : ∀ (l r : List Nat), l.Pairwise (· < ·) → r.Pairwise (· < ·) →
    (setDifference l r).Sublist l ∧ ∀ x, x ∈ setDifference l r ↔ x ∈ l ∧ x ∉ r
  | [], r, _, _ => by unfold setDifference; simp
  | a :: as, [], _, _ => by unfold setDifference; simp
  | a :: as, b :: bs, hl, hr => by
    have hl' := hl
    have hr' := hr
    rw [List.pairwise_cons] at hl hr
    unfold setDifference
    split
    · rename_i hab
      obtain ⟨h1, h2⟩ := setDifference_spec as (b :: bs) hl.2 hr'
      refine ⟨h1.cons_cons a, ?_⟩
      intro x
      rw [List.mem_cons, h2 x, List.mem_cons (a := x) (b := a)]
      constructor
      · rintro (h | h)
        · subst h
          refine ⟨Or.inl rfl, ?_⟩
          intro hm
          rcases List.mem_cons.mp hm with hm | hm
          · omega
          · have := hr.1 x hm; omega
        · exact ⟨Or.inr h.1, h.2⟩
      · rintro ⟨h | h, h'⟩
        · exact Or.inl h
        · exact Or.inr ⟨h, h'⟩
    · split
      · rename_i hab hba
        obtain ⟨h1, h2⟩ := setDifference_spec (a :: as) bs hl' hr.2
        refine ⟨h1, ?_⟩
        intro x
        rw [h2 x]
        refine and_congr_right fun hx => ?_
        have hxb : x ≠ b := by
          rcases List.mem_cons.mp hx with h | h
          · omega
          · have := hl.1 x h; omega
        simp [hxb]
      · rename_i hab hba
        have : a = b := by omega
        subst this
        obtain ⟨h1, h2⟩ := setDifference_spec as bs hl.2 hr.2
        refine ⟨h1.cons a, ?_⟩
        intro x
        rw [h2 x]
        constructor
        · rintro ⟨h, h'⟩
          have := hl.1 x h
          exact ⟨by simp [h], by simp [h']; omega⟩
        · rintro ⟨h, h'⟩
          simp only [List.mem_cons, not_or] at h h'
          rcases h with h | h
          · exact absurd h h'.1
          · exact ⟨h, h'.2⟩
termination_by l r => l.length + r.length

theorem MInv.addSteps (hG : G.WF) : ∀ (vs : List Nat) {st : AgSt}, MInv G agg0 a sd vs st →
    MInv G agg0 a sd [] (vs.foldl (addStep G) st) ∧ (vs.foldl (addStep G) st).verts.length = st.verts.length + vs.length ∧
      ∀ x, x ∈ (vs.foldl (addStep G) st).verts ↔ x ∈ st.verts ∨ x ∈ vs
  | [], st, h => ⟨h, rfl, by simp⟩
  | v :: vs, st, h => by
    obtain ⟨g1, g2, g3, g4, g5⟩ := h.rmem v (by simp)
    have hnd := List.nodup_cons.mp h.rnd
    have hfv : v ∉ st.front := fun hc => (h.fmem v hc).2.2.2.2.2 (by simp)
    have h1 : MInv G agg0 a sd vs { st with front := st.front, flag := upd st.flag v false } := by
      refine ⟨h.idv, h.aggv, h.un, h.asc, h.reach, h.fnd, ?_, hnd.2, ?_, ?_⟩
      · intro w hw
        obtain ⟨q1, q2, q3, q4, q5, q6⟩ := h.fmem w hw
        have hwv : w ≠ v := fun hc => hfv (hc ▸ hw)
        exact ⟨q1, q2, q3, by dsimp only; rw [upd_ne _ _ hwv]; exact q4, q5, fun hc => q6 (by simp [hc])⟩
      · intro w hw
        obtain ⟨q1, q2, q3, q4, q5⟩ := h.rmem w (by simp [hw])
        have hwv : w ≠ v := fun hc => hnd.1 (hc ▸ hw)
        exact ⟨q1, q2, q3, by dsimp only; rw [upd_ne _ _ hwv]; exact q4, q5⟩
      · intro w hw q1 q2
        dsimp only at hw ⊢
        have hwv : w ≠ v := by
          rintro rfl
          rw [upd_same] at hw
          cases hw
        rw [upd_ne _ _ hwv] at hw
        rcases h.flagv w hw q1 q2 with h | h
        · exact Or.inl h
        · exact Or.inr (by simpa [hwv] using h)
    obtain ⟨h2, e2⟩ := h1.absorb hG g1 g2 g3 (Or.inr g5) hfv hnd.1 (upd st.flag v false) (fun _ _ => rfl)
    obtain ⟨h3, e3, m3⟩ := MInv.addSteps hG vs (st := addStep G st v) h2
    refine ⟨h3, ?_, ?_⟩
    · rw [List.foldl_cons, e3]
      have : (addStep G st v).verts = setInsert v st.verts := e2
      rw [this, setInsert_length v st.verts h.asc g1, List.length_cons]
      omega
    · intro x
      rw [List.foldl_cons, m3 x]
      have : (addStep G st v).verts = setInsert v st.verts := e2
      rw [this, (setInsert_spec v st.verts h.asc).2 x, List.mem_cons]
      constructor
      · rintro ((h | h) | h)
        · exact Or.inr (Or.inl h)
        · exact Or.inl h
        · exact Or.inr (Or.inr h)
      · rintro (h | h | h)
        · exact Or.inl (Or.inr h)
        · exact Or.inl (Or.inl h)
        · exact Or.inr h

/-- `add(vertices)` of a sub-sequence of the front -/
theorem GInv.addMany (hG : G.WF) (h : GInv G agg0 a sd st) {vs : List Nat} (hsub : vs.Sublist st.front) :
    GInv G agg0 a sd (Amg.addMany G vs st) ∧ (Amg.addMany G vs st).verts.length = st.verts.length + vs.length ∧
      ∀ x, x ∈ (Amg.addMany G vs st).verts ↔ x ∈ st.verts ∨ x ∈ vs := by
  obtain ⟨hm, hs⟩ := h
  obtain ⟨d1, d2⟩ := setDifference_spec st.front vs hs (hs.sublist hsub)
  have h1 : MInv G agg0 a sd vs { st with front := setDifference st.front vs } := by
    refine ⟨hm.idv, hm.aggv, hm.un, hm.asc, hm.reach, hm.fnd.sublist d1, ?_, hm.fnd.sublist hsub, ?_, ?_⟩
    · intro w hw
      obtain ⟨hw1, hw2⟩ := (d2 w).mp hw
      obtain ⟨q1, q2, q3, q4, q5, _⟩ := hm.fmem w hw1
      exact ⟨q1, q2, q3, q4, q5, hw2⟩
    · intro w hw
      obtain ⟨q1, q2, q3, q4, q5, _⟩ := hm.fmem w (hsub.subset hw)
      exact ⟨q1, q2, q3, q4, q5⟩
    · intro w hw q1 q2
      dsimp only
      by_cases hwv : w ∈ vs
      · exact Or.inr hwv
      · rcases hm.flagv w hw q1 q2 with h | h
        · exact Or.inl ((d2 w).mpr ⟨h, hwv⟩)
        · simp at h
  obtain ⟨h2, e2, m2⟩ := h1.addSteps hG
  exact ⟨⟨h2.sort, (sortFront_spec _).2 h2.fnd⟩, e2, m2⟩

end Amg
end Istl
