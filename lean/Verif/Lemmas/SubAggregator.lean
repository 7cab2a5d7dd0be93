import Verif.Lemmas.Aggregator2

/-! The aggregator never looks at the map of a vertex that no edge leads to. -/

namespace Istl
namespace Amg

/-- Apply a function to a result. -/
def mapR {α β : Type} (f : α → β) : Res α → Res β
  | .ok a => .ok (f a)
  | .throw e => .throw e
  | .ub => .ub

/-- The state with another map at the vertices `ex`. -/
def patch (ex : Nat → Bool) (o : Nat → Agg) (st : AgSt) : AgSt := { st with agg := fun v => if ex v then o v else st.agg v }

variable {G : Graph} {ex : Nat → Bool} {o : Nat → Agg} {st : AgSt}

theorem patch_agg {t : Nat} (h : ex t = false) : (patch ex o st).agg t = st.agg t := by simp [patch, h]

theorem upd_patch {v : Nat} (h : ex v = false) (f : Nat → Agg) (w : Agg) :
    upd (fun u => if ex u then o u else f u) v w = fun u => if ex u then o u else upd f v w u := by
  funext u
  by_cases hu : u = v
  · subst hu; simp [upd, h]
  · simp [upd, hu]

theorem patch_addEdge {t : Nat} (h : ex t = false) : addEdge (patch ex o st) t = patch ex o (addEdge st t) := by
  unfold addEdge
  rw [patch_agg h]
  have : (patch ex o st).flag = st.flag := rfl
  rw [this]
  split_ifs <;> rfl

theorem patch_addEdges : ∀ (l : List Nat) (st : AgSt), (∀ t ∈ l, ex t = false) →
    l.foldl addEdge (patch ex o st) = patch ex o (l.foldl addEdge st) := by
  intro l
  induction l with
  | nil => intro _ _; rfl
  | cons t l ih =>
    intro st h
    rw [List.foldl_cons, List.foldl_cons, patch_addEdge (h t (by simp))]
    exact ih _ fun u hu => h u (by simp [hu])

theorem patch_absorb (hG : ∀ v, ∀ t ∈ G.adj v, ex t = false) (v : Nat) (st : AgSt) :
    absorb G v (patch ex o st) = patch ex o (absorb G v st) := patch_addEdges _ _ (hG v)

/-- The state at the end of `add1`. -/
def addEnd (G : Graph) (v : Nat) (st : AgSt) (fr : List Nat) : AgSt :=
  let st := absorb G v { st with verts := MatMat.setInsert v st.verts, agg := upd st.agg v st.cur, front := fr }
  { st with front := sortFront st.front }

theorem add1_eq (G : Graph) (v : Nat) (st : AgSt) :
    add1 G v st = mapR (addEnd G v st) (if st.front.length ≠ 0 then eraseLower v st.front else .ok st.front) := by
  unfold add1
  by_cases h : st.front.length ≠ 0
  · simp only [if_pos h]
    cases eraseLower v st.front <;> rfl
  · simp only [if_neg h]
    rfl

theorem patch_add1 (hG : ∀ v, ∀ t ∈ G.adj v, ex t = false) {v : Nat} (hv : ex v = false) (st : AgSt) :
    add1 G v (patch ex o st) = mapR (patch ex o) (add1 G v st) := by
  have key : ∀ fr, addEnd G v (patch ex o st) fr = patch ex o (addEnd G v st fr) := by
    intro fr
    have : absorb G v { patch ex o st with verts := MatMat.setInsert v (patch ex o st).verts, agg := upd (patch ex o st).agg v (patch ex o st).cur, front := fr } =
      patch ex o (absorb G v { st with verts := MatMat.setInsert v st.verts, agg := upd st.agg v st.cur, front := fr }) := by
      rw [← patch_absorb hG]
      congr 1
      simp only [patch, upd_patch hv]
      rfl
    unfold addEnd
    dsimp only
    rw [this]
    rfl
  rw [add1_eq, add1_eq]
  have e1 : (patch ex o st).front = st.front := rfl
  rw [e1]
  cases (if st.front.length ≠ 0 then eraseLower v st.front else Res.ok st.front) with
  | ok fr => simp only [mapR, key]
  | throw e => rfl
  | ub => rfl

theorem patch_seed (hG : ∀ v, ∀ t ∈ G.adj v, ex t = false) {v : Nat} (hv : ex v = false) (st : AgSt) :
    seed G v (patch ex o st) = mapR (patch ex o) (seed G v st) :=
  patch_add1 hG hv { st with conn := connInsert (.id v) [], verts := [], id := st.id + 1 }

theorem patch_addStep (hG : ∀ v, ∀ t ∈ G.adj v, ex t = false) {v : Nat} (hv : ex v = false) (st : AgSt) :
    addStep G (patch ex o st) v = patch ex o (addStep G st v) := by
  unfold addStep
  rw [← patch_absorb hG]
  congr 1
  simp only [patch, upd_patch hv]
  rfl

theorem patch_addMany (hG : ∀ v, ∀ t ∈ G.adj v, ex t = false) (vs : List Nat) (hv : ∀ v ∈ vs, ex v = false) (st : AgSt) :
    addMany G vs (patch ex o st) = patch ex o (addMany G vs st) := by
  have : ∀ (vs : List Nat) (st : AgSt), (∀ v ∈ vs, ex v = false) → vs.foldl (addStep G) (patch ex o st) = patch ex o (vs.foldl (addStep G) st) := by
    intro vs
    induction vs with
    | nil => intro _ _; rfl
    | cons v vs ih =>
      intro st h
      rw [List.foldl_cons, List.foldl_cons, patch_addStep hG (h v (by simp))]
      exact ih _ fun u hu => h u (by simp [hu])
  unfold addMany
  have e := this vs { st with front := setDifference st.front vs } hv
  have e' : { patch ex o st with front := setDifference (patch ex o st).front vs } = patch ex o { st with front := setDifference st.front vs } := rfl
  rw [e', e]
  rfl

/-! ### The counters -/

theorem patch_count (hG : ∀ v, ∀ t ∈ G.adj v, ex t = false) (v : Nat) (f : Nat → Agg → Bool) :
    countEdges G v (fun t => f t ((patch ex o st).agg t)) = countEdges G v (fun t => f t (st.agg t)) := by
  unfold countEdges
  congr 1
  refine List.filter_congr fun t ht => ?_
  rw [patch_agg (hG v t ht)]

theorem patch_twoWay (hG : ∀ v, ∀ t ∈ G.adj v, ex t = false) (P : Props) (v : Nat) (a : Agg) :
    twoWay G P (patch ex o st) v a = twoWay G P st v a := patch_count hG v fun t x => decide (x = a) && (P.dep v t && P.infl v t)

theorem patch_oneWay (hG : ∀ v, ∀ t ∈ G.adj v, ex t = false) (P : Props) (v : Nat) (a : Agg) :
    oneWay G P (patch ex o st) v a = oneWay G P st v a := patch_count hG v fun t x => decide (x = a) && (P.dep v t && !P.infl v t)

theorem patch_connectivity (hG : ∀ v, ∀ t ∈ G.adj v, ex t = false) (v : Nat) : connectivity G (patch ex o st) v = connectivity G st v := by
  unfold connectivity
  have : (G.adj v).map (fun t => if (patch ex o st).agg t ∉ (patch ex o st).conn ∨ (patch ex o st).agg t = .unagg then 1 else 2) =
      (G.adj v).map (fun t => if st.agg t ∉ st.conn ∨ st.agg t = .unagg then 1 else 2) := by
    refine List.map_congr_left fun t ht => ?_
    rw [patch_agg (hG v t ht)]
    rfl
  rw [this]

theorem patch_neighbours (hG : ∀ v, ∀ t ∈ G.adj v, ex t = false) (P : Props) (v : Nat) (a : Agg) :
    neighbours G P (patch ex o st) v a = neighbours G P st v a := by
  have : ∀ a : Agg, (G.adj v).filter (fun t => decide ((patch ex o st).agg t = a)) = (G.adj v).filter fun t => decide (st.agg t = a) := by
    intro a
    refine List.filter_congr fun t ht => ?_
    rw [patch_agg (hG v t ht)]
  unfold neighbours
  simp only [this]

theorem patch_connectedTo (hG : ∀ v, ∀ t ∈ G.adj v, ex t = false) (v : Nat) (l : List Agg) :
    connectedTo G (patch ex o st) v l = connectedTo G st v l := by
  unfold connectedTo
  congr 1
  funext a
  rw [Bool.eq_iff_iff, List.any_eq_true, List.any_eq_true]
  constructor
  · rintro ⟨t, ht, h⟩; exact ⟨t, ht, by rwa [patch_agg (hG v t ht)] at h⟩
  · rintro ⟨t, ht, h⟩; exact ⟨t, ht, by rwa [patch_agg (hG v t ht)]⟩

theorem find_congr {p q : Nat → Bool} : ∀ (l : List Nat), (∀ t ∈ l, p t = q t) → l.find? p = l.find? q := by
  intro l
  induction l with
  | nil => intro _; rfl
  | cons a l ih =>
    intro h
    rw [List.find?_cons, List.find?_cons, h a (by simp), ih fun t ht => h t (by simp [ht])]

theorem patch_mergeNeighbour (hG : ∀ v, ∀ t ∈ G.adj v, ex t = false) (P : Props) (v : Nat) :
    mergeNeighbour G P (patch ex o st) v = mergeNeighbour G P st v := by
  unfold mergeNeighbour
  refine find_congr _ fun t ht => ?_
  rw [patch_agg (hG v t ht)]

theorem patch_isoCandidate (hG : ∀ v, ∀ t ∈ G.adj v, ex t = false) (c : Crit) (ca : List Agg) :
    isoCandidate G c (patch ex o st) ca = isoCandidate G c st ca := by
  have : isoSelStep G c (patch ex o st) ca = isoSelStep G c st ca := by
    funext s v
    unfold isoSelStep
    rw [patch_connectivity hG, patch_connectedTo hG]
    rfl
  unfold isoCandidate
  rw [this]
  rfl

theorem patch_tieBreak (hG : ∀ v, ∀ t ∈ G.adj v, ex t = false) : tieBreak G (patch ex o st) = tieBreak G st := by
  funext al s v
  unfold tieBreak
  rw [patch_connectivity hG]
  rfl

theorem patch_candidates (hG : ∀ v, ∀ t ∈ G.adj v, ex t = false) (P : Props) : candidates G P (patch ex o st) = candidates G P st := by
  have : selStep G P (patch ex o st) = selStep G P st := by
    funext s v
    unfold selStep selTwo selOne
    rw [patch_twoWay hG, patch_oneWay hG, patch_tieBreak hG, patch_connectivity hG]
    rfl
  unfold candidates
  rw [this]
  rfl

theorem patch_roundOk (hG : ∀ v, ∀ t ∈ G.adj v, ex t = false) (P : Props) (c : Crit) : roundOk G P c (patch ex o st) = roundOk G P c st := by
  funext v
  unfold roundOk
  rw [patch_twoWay hG, patch_oneWay hG, patch_neighbours hG]
  rfl

/-! ### The front -/

/-- The front has no vertex of `ex`. -/
def FrontOut (ex : Nat → Bool) (st : AgSt) : Prop := ∀ v ∈ st.front, ex v = false

theorem front_addEdges : ∀ (l : List Nat) (st : AgSt), (∀ t ∈ l, ex t = false) → FrontOut ex st → FrontOut ex (l.foldl addEdge st) := by
  intro l
  induction l with
  | nil => intro _ _ h; exact h
  | cons t l ih =>
    intro st h hf
    rw [List.foldl_cons]
    refine ih _ (fun u hu => h u (by simp [hu])) ?_
    unfold addEdge
    split_ifs
    · intro v hv
      rcases List.mem_append.1 hv with hv | hv
      · exact hf v hv
      · rw [List.mem_singleton.1 hv]; exact h t (by simp)
    · exact hf

theorem front_sort (h : FrontOut ex st) : FrontOut ex { st with front := sortFront st.front } :=
  fun v hv => h v ((sortFront_spec st.front).1.mem_iff.1 hv)

theorem front_add1 (hG : ∀ v, ∀ t ∈ G.adj v, ex t = false) {v : Nat} {st' : AgSt} (h : FrontOut ex st) (e : add1 G v st = .ok st') : FrontOut ex st' := by
  rw [add1_eq] at e
  obtain ⟨fr, e1, e2⟩ : ∃ fr, (if st.front.length ≠ 0 then eraseLower v st.front else .ok st.front) = .ok fr ∧ addEnd G v st fr = st' := by
    cases h : (if st.front.length ≠ 0 then eraseLower v st.front else Res.ok st.front) with
    | ok fr => rw [h] at e; exact ⟨fr, rfl, Res.ok.inj e⟩
    | throw x => rw [h] at e; cases e
    | ub => rw [h] at e; cases e
  rw [← e2]
  refine front_sort (front_addEdges _ _ (hG v) ?_)
  intro u hu
  have hu : u ∈ fr := hu
  split_ifs at e1
  · unfold eraseLower at e1
    dsimp only at e1
    split_ifs at e1
    rw [← Res.ok.inj e1] at hu
    exact h u (List.mem_of_mem_eraseIdx hu)
  · rw [← Res.ok.inj e1] at hu
    exact h u hu

theorem setDifference_mem : ∀ (l r : List Nat) (v : Nat), v ∈ setDifference l r → v ∈ l := by
  intro l r
  induction l, r using setDifference.induct with
  | case1 => intro v h; rw [setDifference] at h; exact h
  | case2 => intro v h; rw [setDifference] at h; exact h
  | case3 a as b bs h1 ih =>
    intro v h
    rw [setDifference, if_pos h1] at h
    rcases List.mem_cons.1 h with rfl | h
    · simp
    · simp [ih v h]
  | case4 a as b bs h1 h2 ih =>
    intro v h
    rw [setDifference, if_neg h1, if_pos h2] at h
    exact ih v h
  | case5 a as b bs h1 h2 ih =>
    intro v h
    rw [setDifference, if_neg h1, if_neg h2] at h
    simp [ih v h]

theorem front_addMany (hG : ∀ v, ∀ t ∈ G.adj v, ex t = false) (vs : List Nat) (h : FrontOut ex st) : FrontOut ex (addMany G vs st) := by
  have : ∀ (vs : List Nat) (st : AgSt), FrontOut ex st → FrontOut ex (vs.foldl (addStep G) st) := by
    intro vs
    induction vs with
    | nil => intro _ h; exact h
    | cons v vs ih =>
      intro st h
      rw [List.foldl_cons]
      exact ih _ (front_addEdges _ _ (hG v) h)
  exact front_sort (this vs _ fun v hv => h v (setDifference_mem _ _ v hv))

/-! ### Growing -/

theorem patch_growIso (hG : ∀ v, ∀ t ∈ G.adj v, ex t = false) (c : Crit) (ca : List Agg) : ∀ (fuel : Nat) (st : AgSt), FrontOut ex st →
    growIso G c ca fuel (patch ex o st) = (growIso G c ca fuel st).map (mapR (patch ex o)) ∧
      ∀ st', growIso G c ca fuel st = some (.ok st') → FrontOut ex st' := by
  intro fuel
  induction fuel with
  | zero => intro st _; exact ⟨rfl, fun st' h => by cases h⟩
  | succ fuel ih =>
    intro st hf
    rw [growIso, growIso, patch_isoCandidate hG]
    have e1 : (patch ex o st).verts = st.verts := rfl
    have e2 : (patch ex o st).conn = st.conn := rfl
    rw [e1, e2]
    by_cases h : st.verts.length < c.minSize ∧ st.conn.length < c.maxConn
    · rw [if_pos h, if_pos h]
      cases hc : isoCandidate G c st ca with
      | none => exact ⟨rfl, fun st' h => by rw [← Res.ok.inj (Option.some.inj h)]; exact hf⟩
      | some v =>
        have hv : ex v = false := hf v (isoCandidate_mem G c st ca hc)
        dsimp only
        rw [patch_add1 hG hv]
        cases ha : add1 G v st with
        | ok st1 => exact ih st1 (front_add1 hG hf ha)
        | throw e => exact ⟨rfl, fun st' h => by cases Option.some.inj h⟩
        | ub => exact ⟨rfl, fun st' h => by cases Option.some.inj h⟩
    · rw [if_neg h, if_neg h]
      exact ⟨rfl, fun st' h => by rw [← Res.ok.inj (Option.some.inj h)]; exact hf⟩

theorem patch_grow (hG : ∀ v, ∀ t ∈ G.adj v, ex t = false) (P : Props) (c : Crit) (sd : Nat) : ∀ (fuel dist : Nat) (st : AgSt), FrontOut ex st →
    grow G P c sd fuel dist (patch ex o st) = (grow G P c sd fuel dist st).map (patch ex o) ∧
      ∀ st', grow G P c sd fuel dist st = some st' → FrontOut ex st' := by
  intro fuel
  induction fuel with
  | zero => intro dist st _; exact ⟨rfl, fun st' h => by cases h⟩
  | succ fuel ih =>
    intro dist st hf
    rw [grow, grow, patch_candidates hG]
    have e1 : (patch ex o st).verts = st.verts := rfl
    rw [e1]
    by_cases h : st.verts.length < c.minSize ∧ dist < c.maxDistance
    · rw [if_pos h, if_pos h]
      dsimp only
      by_cases h0 : (candidates G P st).length = 0
      · rw [if_pos h0, if_pos h0]
        exact ⟨rfl, fun st' h => by rw [← Option.some.inj h]; exact hf⟩
      · rw [if_neg h0, if_neg h0, patch_addMany hG _ (fun v hv => hf v ((candidates_sublist G P st).subset (List.mem_of_mem_take hv)))]
        exact ih _ _ (front_addMany hG _ hf)
    · rw [if_neg h, if_neg h]
      exact ⟨rfl, fun st' h => by rw [← Option.some.inj h]; exact hf⟩

theorem patch_rounding (hG : ∀ v, ∀ t ∈ G.adj v, ex t = false) (P : Props) (c : Crit) (sd : Nat) : ∀ (fuel : Nat) (st : AgSt), FrontOut ex st →
    rounding G P c sd fuel (patch ex o st) = (rounding G P c sd fuel st).map (patch ex o) := by
  intro fuel
  induction fuel with
  | zero => intro st _; rfl
  | succ fuel ih =>
    intro st hf
    rw [rounding, rounding, patch_roundOk hG]
    have e1 : (patch ex o st).verts = st.verts := rfl
    have e2 : (patch ex o st).front = st.front := rfl
    rw [e1, e2]
    by_cases h : P.isolated sd = false ∧ st.verts.length < c.maxSize
    · rw [if_pos h, if_pos h]
      cases hc : st.front.find? (roundOk G P c st) with
      | none => rfl
      | some v =>
        have hv : ex v = false := hf v (List.mem_of_find?_eq_some hc)
        dsimp only
        rw [patch_addMany hG _ (fun u hu => by rw [List.mem_singleton.1 (List.mem_of_mem_take hu)]; exact hv)]
        exact ih _ (front_addMany hG _ hf)
    · rw [if_neg h, if_neg h]
      rfl

theorem patch_growFrom (hG : ∀ v, ∀ t ∈ G.adj v, ex t = false) (P : Props) (c : Crit) (fuel : Nat) {sd : Nat} (hs : ex sd = false) (st : AgSt)
    (hf : FrontOut ex st) :
    growFrom G P c fuel sd (patch ex o st) = (growFrom G P c fuel sd st).map (mapR (patch ex o)) ∧
      ∀ st', growFrom G P c fuel sd st = some (.ok st') → FrontOut ex st' := by
  unfold growFrom
  rw [patch_seed hG hs]
  cases ha : seed G sd st with
  | ok st1 =>
    have h1 : FrontOut ex st1 := front_add1 hG (st := { st with conn := connInsert (.id sd) [], verts := [], id := st.id + 1 }) hf ha
    dsimp only [mapR]
    by_cases hi : P.isolated sd = true
    · rw [if_pos hi, if_pos hi]
      exact patch_growIso hG c _ fuel st1 h1
    · rw [if_neg hi, if_neg hi]
      obtain ⟨k1, k2⟩ := patch_grow (o := o) hG P c sd fuel 0 st1 h1
      rw [k1]
      refine ⟨by cases grow G P c sd fuel 0 st1 <;> rfl, fun st' h => ?_⟩
      cases hg : grow G P c sd fuel 0 st1 with
      | none => rw [hg] at h; cases h
      | some s =>
        rw [hg] at h
        have : s = st' := Res.ok.inj (Option.some.inj h)
        rw [← this]
        exact k2 s hg
  | throw e => exact ⟨rfl, fun st' h => by cases Option.some.inj h⟩
  | ub => exact ⟨rfl, fun st' h => by cases Option.some.inj h⟩

/-- The state of `build` with another map at the vertices `ex` and another count of skipped vertices. -/
def patchB (ex : Nat → Bool) (o : Nat → Agg) (k : Nat) (b : BuildSt) : BuildSt := { b with st := patch ex o b.st, skipped := k }

theorem patch_finish (hG : ∀ v, ∀ t ∈ G.adj v, ex t = false) (P : Props) (c : Crit) {sd : Nat} (hs : ex sd = false) (k : Nat) (b : BuildSt) :
    finish G P c sd (patchB ex o k b) = patchB ex o k (finish G P c sd b) := by
  unfold finish
  have e1 : (patchB ex o k b).st = patch ex o b.st := rfl
  rw [e1, patch_mergeNeighbour hG]
  have e2 : (patch ex o b.st).verts = b.st.verts := rfl
  rw [e2]
  by_cases h1 : b.st.verts.length = 1 ∧ c.maxSize > 1
  · rw [if_pos h1, if_pos h1]
    by_cases h2 : P.isolated sd = false
    · rw [if_pos h2, if_pos h2]
      cases hm : mergeNeighbour G P b.st sd with
      | none => rfl
      | some t =>
        have ht : ex t = false := hG sd t (List.mem_of_find?_eq_some hm)
        dsimp only
        rw [patch_agg ht]
        simp only [patchB, patch, upd_patch hs]
    · rw [if_neg h2, if_neg h2]; rfl
  · rw [if_neg h1, if_neg h1]
    split_ifs <;> rfl

/-- Both runs end in the same way, the maps agree at the vertices that are not in `ex`, and the counters of aggregates agree; at the vertices
`ex` the second has nothing but isolated and undecided vertices. -/
inductive SameRun (ex : Nat → Bool) : Option (Res BuildSt) → Option (Res BuildSt) → Prop
  | none : SameRun ex none none
  | throw (e : Exc) : SameRun ex (some (.throw e)) (some (.throw e))
  | ub : SameRun ex (some .ub) (some .ub)
  | ok (b b' : BuildSt) : (∀ v, ex v = false → b'.st.agg v = b.st.agg v) → b'.con = b.con → b'.iso = b.iso →
      (∀ v, ex v = true → b'.st.agg v = .unagg ∨ b'.st.agg v = .iso) → SameRun ex (some (.ok b)) (some (.ok b'))

/-- The flags with all vertices of `ex` excluded. -/
def Props.without (P : Props) (ex : Nat → Bool) : Props := { P with excluded := fun v => P.excluded v || ex v }

theorem without_eq (P : Props) (c : Crit) (fuel sd : Nat) (st : AgSt) : growFrom G (P.without ex) c fuel sd st = growFrom G P c fuel sd st := by
  have hg : ∀ (fuel dist : Nat) (st : AgSt), grow G (P.without ex) c sd fuel dist st = grow G P c sd fuel dist st := by
    intro fuel
    induction fuel with
    | zero => intro _ _; rfl
    | succ fuel ih =>
      intro dist st
      rw [grow, grow]
      have : candidates G (P.without ex) st = candidates G P st := rfl
      rw [this]
      dsimp only
      rw [ih]
  unfold growFrom
  cases seed G sd st with
  | ok st1 => dsimp only; rw [hg]; rfl
  | throw e => rfl
  | ub => rfl

theorem without_rounding (P : Props) (c : Crit) (sd : Nat) : ∀ (fuel : Nat) (st : AgSt), rounding G (P.without ex) c sd fuel st = rounding G P c sd fuel st := by
  intro fuel
  induction fuel with
  | zero => intro _; rfl
  | succ fuel ih =>
    intro st
    rw [rounding, rounding]
    have : roundOk G (P.without ex) c st = roundOk G P c st := rfl
    rw [this]
    simp only [ih]
    rfl

/-- A vertex that is not in `ex`. -/
theorem sim_seed (hG : ∀ v, ∀ t ∈ G.adj v, ex t = false) (P : Props) (c : Crit) (fuel : Nat) {sd : Nat} (hs : ex sd = false) (b b' : BuildSt) (k : Nat)
    (hb : { b' with st := unmarkFront b'.st } = patchB ex o k { b with st := unmarkFront b.st }) :
    ∃ k', buildSeed G (P.without ex) c fuel b' sd = (buildSeed G P c fuel b sd).map (mapR (patchB ex o k')) := by
  have hst : unmarkFront b'.st = patch ex o (unmarkFront b.st) := congrArg BuildSt.st hb
  have hfo : FrontOut ex (unmarkFront b.st) := fun v hv => by cases hv
  have hex : (P.without ex).excluded sd = P.excluded sd := by simp [Props.without, hs]
  have key : ∀ x : AgSt, ({ b' with st := patch ex o x } : BuildSt) = patchB ex o k { b with st := x } := by
    intro x
    have : ({ b' with st := patch ex o x } : BuildSt) = { ({ b' with st := unmarkFront b'.st } : BuildSt) with st := patch ex o x } := rfl
    rw [this, hb]
    rfl
  unfold buildSeed
  rw [hst, hex]
  dsimp only
  by_cases h1 : P.excluded sd = true
  · refine ⟨k + 1, ?_⟩
    rw [if_pos h1, if_pos h1]
    have := key { unmarkFront b.st with agg := upd (unmarkFront b.st).agg sd .iso }
    have e2 : ({ patch ex o (unmarkFront b.st) with agg := upd (patch ex o (unmarkFront b.st)).agg sd .iso } : AgSt) =
        patch ex o { unmarkFront b.st with agg := upd (unmarkFront b.st).agg sd .iso } := by
      simp only [patch, upd_patch hs]
    have e3 : b'.skipped = k := congrArg BuildSt.skipped hb
    show some (Res.ok ({ ({ b' with st := { patch ex o (unmarkFront b.st) with agg := upd (patch ex o (unmarkFront b.st)).agg sd .iso } } : BuildSt) with skipped := b'.skipped + 1 })) = _
    rw [e2, this, e3]
    rfl
  · rw [if_neg h1, if_neg h1]
    by_cases h2 : P.isolated sd = true ∧ c.skipIsolated = true
    · refine ⟨k + 1, ?_⟩
      have h2' : (P.without ex).isolated sd = true ∧ c.skipIsolated = true := h2
      rw [if_pos h2, if_pos h2']
      have := key { unmarkFront b.st with agg := upd (unmarkFront b.st).agg sd .iso }
      have e2 : ({ patch ex o (unmarkFront b.st) with agg := upd (patch ex o (unmarkFront b.st)).agg sd .iso } : AgSt) =
          patch ex o { unmarkFront b.st with agg := upd (unmarkFront b.st).agg sd .iso } := by
        simp only [patch, upd_patch hs]
      have e3 : b'.skipped = k := congrArg BuildSt.skipped hb
      show some (Res.ok ({ ({ b' with st := { patch ex o (unmarkFront b.st) with agg := upd (patch ex o (unmarkFront b.st)).agg sd .iso } } : BuildSt) with skipped := b'.skipped + 1 })) = _
      rw [e2, this, e3]
      rfl
    · refine ⟨k, ?_⟩
      have h2' : ¬((P.without ex).isolated sd = true ∧ c.skipIsolated = true) := h2
      rw [if_neg h2, if_neg h2', without_eq]
      obtain ⟨g1, g2⟩ := patch_growFrom (o := o) hG P c fuel hs (unmarkFront b.st) hfo
      rw [g1]
      cases hg : growFrom G P c fuel sd (unmarkFront b.st) with
      | none => rfl
      | some r =>
        cases r with
        | throw e => rfl
        | ub => rfl
        | ok st1 =>
          dsimp only [Option.map_some, mapR]
          rw [without_rounding, patch_rounding hG P c sd fuel st1 (g2 st1 hg)]
          cases rounding G P c sd fuel st1 with
          | none => rfl
          | some st2 =>
            dsimp only [Option.map_some, mapR]
            rw [key]
            have : finish G (P.without ex) c sd (patchB ex o k { b with st := st2 }) = finish G P c sd (patchB ex o k { b with st := st2 }) := rfl
            rw [this, patch_finish hG P c hs]

theorem unmark_idem (st : AgSt) : unmarkFront (unmarkFront st) = unmarkFront st := by
  simp [unmarkFront]

/-- The loop over all vertices, those of `ex` excluded, and the loop over the others only. -/
theorem sim_loop (hG : ∀ v, ∀ t ∈ G.adj v, ex t = false) (P : Props) (c : Crit) (fuel : Nat) : ∀ (vs : List Nat) (o : Nat → Agg) (b b' : BuildSt) (k : Nat),
    { b' with st := unmarkFront b'.st } = patchB ex o k { b with st := unmarkFront b.st } → (∀ v, ex v = true → o v = .unagg ∨ o v = .iso) →
    SameRun ex (buildLoop G P c fuel (vs.filter fun v => !ex v) b) (buildLoop G (P.without ex) c fuel vs b') := by
  intro vs
  induction vs with
  | nil =>
    intro o b b' k hb ho
    have hst : unmarkFront b'.st = patch ex o (unmarkFront b.st) := congrArg BuildSt.st hb
    have hagg : b'.st.agg = fun v => if ex v then o v else b.st.agg v := congrArg AgSt.agg hst
    refine .ok b b' ?_ ?_ ?_ ?_
    · intro v hv; rw [hagg]; simp [hv]
    · have := congrArg BuildSt.con hb; exact this
    · have := congrArg BuildSt.iso hb; exact this
    · intro v hv; rw [hagg]; simp only [hv, if_true]; exact ho v hv
  | cons v vs ih =>
    intro o b b' k hb ho
    have hst : unmarkFront b'.st = patch ex o (unmarkFront b.st) := congrArg BuildSt.st hb
    have hagg : b'.st.agg = fun v => if ex v then o v else b.st.agg v := congrArg AgSt.agg hst
    by_cases hv : ex v = true
    · have hf : (v :: vs).filter (fun v => !ex v) = vs.filter fun v => !ex v := by simp [hv]
      rw [hf, buildLoop]
      have hov : b'.st.agg v = o v := by rw [hagg]; simp [hv]
      rcases ho v hv with h | h
      · rw [if_neg (by rw [hov, h]; simp)]
        have hexc : (P.without ex).excluded v = true := by simp [Props.without, hv]
        have : buildSeed G (P.without ex) c fuel b' v =
            some (.ok { b' with st := { unmarkFront b'.st with agg := upd (unmarkFront b'.st).agg v .iso }, skipped := b'.skipped + 1 }) := by
          unfold buildSeed; dsimp only; rw [if_pos hexc]
        rw [this]
        dsimp only
        refine ih (upd o v .iso) b _ (k + 1) ?_ ?_
        · have e3 : b'.skipped = k := congrArg BuildSt.skipped hb
          have key : ∀ x : AgSt, ({ b' with st := x, skipped := k + 1 } : BuildSt) = { patchB ex o k { b with st := unmarkFront b.st } with st := x, skipped := k + 1 } := by
            intro x; rw [← hb]
          have e4 : unmarkFront { unmarkFront b'.st with agg := upd (unmarkFront b'.st).agg v .iso } =
              patch ex (upd o v .iso) (unmarkFront b.st) := by
            rw [hst]
            have : upd (fun u => if ex u then o u else (unmarkFront b.st).agg u) v Agg.iso =
                fun u => if ex u then upd o v .iso u else (unmarkFront b.st).agg u := by
              funext u
              by_cases hu : u = v
              · subst hu; simp [upd, hv]
              · simp [upd, hu]
            simp only [patch, unmarkFront, List.foldl_nil] at this ⊢
            rw [this]
          dsimp only
          rw [e4, e3, key]
          rfl
        · intro u hu
          by_cases huv : u = v
          · subst huv; simp [upd]
          · rw [upd_ne o _ huv]; exact ho u hu
      · rw [if_pos (by rw [hov, h]; simp)]
        exact ih o b b' k hb ho
    · have hv' : ex v = false := by simpa using hv
      have hf : (v :: vs).filter (fun v => !ex v) = v :: vs.filter fun v => !ex v := by simp [hv']
      rw [hf, buildLoop, buildLoop]
      have hov : b'.st.agg v = b.st.agg v := by rw [hagg]; simp [hv']
      rw [hov]
      by_cases hu : b.st.agg v ≠ .unagg
      · rw [if_pos hu, if_pos hu]
        exact ih o b b' k hb ho
      · rw [if_neg hu, if_neg hu]
        obtain ⟨k', hk⟩ := sim_seed hG P c fuel hv' b b' k hb
        rw [hk]
        cases hr : buildSeed G P c fuel b v with
        | none => exact .none
        | some r =>
          cases r with
          | throw e => exact .throw e
          | ub => exact .ub
          | ok b1 =>
            dsimp only [Option.map_some, mapR]
            refine ih o b1 (patchB ex o k' b1) k' ?_ ho
            rfl

theorem without_seed (P : Props) (c : Crit) (fuel : Nat) (b : BuildSt) {sd : Nat} (hs : ex sd = false) :
    buildSeed G (P.without ex) c fuel b sd = buildSeed G P c fuel b sd := by
  have e : ∀ v, ex v = false → (P.without ex).excluded v = P.excluded v := fun v hv => by simp [Props.without, hv]
  unfold buildSeed
  rw [e sd hs]
  dsimp only
  by_cases h1 : P.excluded sd = true
  · rw [if_pos h1, if_pos h1]
  · rw [if_neg h1, if_neg h1]
    have e2 : (P.without ex).isolated sd = P.isolated sd := rfl
    rw [e2, without_eq]
    simp only [without_rounding]
    rfl

/-- The loop over vertices that are not in `ex` does not depend on the map at `ex`, and leaves it as it is. -/
theorem patch_loop (hG : ∀ v, ∀ t ∈ G.adj v, ex t = false) (P : Props) (c : Crit) (fuel : Nat) (o : Nat → Agg) : ∀ (vs : List Nat), (∀ v ∈ vs, ex v = false) →
    ∀ (b : BuildSt) (k : Nat), ∃ k', buildLoop G P c fuel vs (patchB ex o k b) = (buildLoop G P c fuel vs b).map (mapR (patchB ex o k')) := by
  intro vs
  induction vs with
  | nil => intro _ b k; exact ⟨k, rfl⟩
  | cons v vs ih =>
    intro hvs b k
    have hv := hvs v (by simp)
    have ih' := ih fun u hu => hvs u (by simp [hu])
    rw [buildLoop, buildLoop]
    have e : (patchB ex o k b).st.agg v = b.st.agg v := patch_agg hv
    rw [e]
    by_cases hu : b.st.agg v ≠ .unagg
    · rw [if_pos hu, if_pos hu]; exact ih' b k
    · rw [if_neg hu, if_neg hu]
      obtain ⟨k', hk⟩ := sim_seed (o := o) hG P c fuel hv b (patchB ex o k b) k rfl
      rw [without_seed P c fuel _ hv] at hk
      rw [hk]
      cases hr : buildSeed G P c fuel b v with
      | none => exact ⟨0, rfl⟩
      | some r =>
        cases r with
        | throw e => exact ⟨0, rfl⟩
        | ub => exact ⟨0, rfl⟩
        | ok b1 => exact ih' b1 k'

theorem refl_trans_noself {α : Type} {r r' : α → α → Prop} (h : ∀ u t, r u t → u = t ∨ r' u t) {a b : α} (hr : Relation.ReflTransGen r a b) :
    Relation.ReflTransGen r' a b := by
  induction hr with
  | refl => exact .refl
  | tail _ hbc ih =>
    rcases h _ _ hbc with rfl | h'
    · exact ih
    · exact ih.tail h'

end Amg
end Istl
