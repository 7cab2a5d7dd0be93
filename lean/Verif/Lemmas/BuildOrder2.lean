import Verif.Lemmas.BuildOrder

/-! The invariant of all construction histories. -/

namespace Istl
namespace Bcrs
variable {B : Type}

theorem rejected (c : Call B) (x : Site B) (hw : c.Writable x) (h : ¬ Permitted c x.s.o.mode x.s.o.ready) :
    ∃ e, (e = .bcrsMatrixError ∨ e = .invalidState) ∧ c.exec x = .throw e x := by
  obtain ⟨s, it⟩ := x
  cases c with
  | setBuildMode bm =>
    simp only [Permitted, not_or, not_and] at h
    obtain ⟨h1, h2⟩ := h
    refine ⟨.invalidState, .inr rfl, ?_⟩
    have : Bcrs.setBuildMode bm s = .throw .invalidState s := by
      unfold Bcrs.setBuildMode
      rw [if_neg h1, if_neg]
      rintro ⟨q1, q2, q3⟩
      have := h2 q1 (by rcases q2 with q | q | q <;> simp [q])
      rcases q3 with q | q
      · exact this.1 q
      · exact this.2 q
    simp only [Call.exec, onMatrix, this]
  | setParameters avg cbs =>
    simp only [Permitted] at h
    by_cases hc : cbs < 0
    · refine ⟨.bcrsMatrixError, .inl rfl, ?_⟩
      simp [Call.exec, onMatrix, setImplicitBuildModeParameters, hc]
    · refine ⟨.invalidState, .inr rfl, ?_⟩
      simp [Call.exec, onMatrix, setImplicitBuildModeParameters, hc, h]
  | setSize r c k => simp [Permitted] at h
  | setIndices r l => simp [Permitted] at h
  | setIndicesNoSort r l => simp [Permitted] at h
  | setrowsize i sz =>
    simp only [Permitted, not_and] at h
    refine ⟨.bcrsMatrixError, .inl rfl, ?_⟩
    by_cases hm : s.o.mode = .random
    · have := h hm
      simp [Call.exec, onMatrix, Bcrs.setrowsize, Cmd.bind_def, hm, this]
    · simp [Call.exec, onMatrix, Bcrs.setrowsize, Cmd.bind_def, hm]
  | incrementrowsize i sz =>
    simp only [Permitted, not_and] at h
    refine ⟨.bcrsMatrixError, .inl rfl, ?_⟩
    by_cases hm : s.o.mode = .random
    · have := h hm
      simp [Call.exec, onMatrix, Bcrs.incrementrowsize, Cmd.bind_def, hm, this]
    · simp [Call.exec, onMatrix, Bcrs.incrementrowsize, Cmd.bind_def, hm]
  | endrowsizes =>
    simp only [Permitted, not_and] at h
    refine ⟨.bcrsMatrixError, .inl rfl, ?_⟩
    by_cases hm : s.o.mode = .random
    · have := h hm
      simp [Call.exec, onMatrix, Bcrs.endrowsizes, Cmd.bind_def, hm, this]
    · simp [Call.exec, onMatrix, Bcrs.endrowsizes, Cmd.bind_def, hm]
  | addindex i j =>
    simp only [Permitted, not_and] at h
    refine ⟨.bcrsMatrixError, .inl rfl, ?_⟩
    by_cases hm : s.o.mode = .random
    · have := h hm
      cases hr : s.o.ready <;> simp [hr] at this <;> simp [Call.exec, onMatrix, Bcrs.addindex, Cmd.bind_def, hm, hr]
    · simp [Call.exec, onMatrix, Bcrs.addindex, Cmd.bind_def, hm]
  | endindices =>
    simp only [Permitted, not_and] at h
    refine ⟨.bcrsMatrixError, .inl rfl, ?_⟩
    by_cases hm : s.o.mode = .random
    · have := h hm
      cases hr : s.o.ready <;> simp [hr] at this <;> simp [Call.exec, onMatrix, Bcrs.endindices, Cmd.bind_def, hm, hr]
    · simp [Call.exec, onMatrix, Bcrs.endindices, Cmd.bind_def, hm]
  | createbegin =>
    simp only [Permitted, not_and] at h
    refine ⟨.bcrsMatrixError, .inl rfl, ?_⟩
    by_cases hr : s.o.ready = .building
    · have hm : ¬ (s.o.mode = .rowWise ∨ s.o.mode = .unknown) := fun q => h q hr
      simp only [not_or] at hm
      simp [Call.exec, onIter, Bcrs.createbegin, Cmd.bind_def, hm, hr, setO]
    · simp [Call.exec, onIter, Bcrs.createbegin, Cmd.bind_def, hr, setO]
  | nextRow cols =>
    simp only [Permitted] at h
    refine ⟨.bcrsMatrixError, .inl rfl, ?_⟩
    have := hw cols rfl
    obtain ⟨c, hc⟩ := Option.isSome_iff_exists.mp this
    simp only at hc
    simp [Call.exec, onIter, CIter.next, Cmd.bind_def, h, hc]
  | entry i j f =>
    simp only [Permitted, not_and] at h
    by_cases hm : s.o.mode = .implicit
    · have := h hm
      cases hr : s.o.ready <;> simp [hr] at this <;> simp [Call.exec, onMatrix, entryChecked, Cmd.bind_def, hm, hr]
    · refine ⟨.bcrsMatrixError, .inl rfl, ?_⟩
      simp [Call.exec, onMatrix, entryChecked, Cmd.bind_def, hm]
  | compress =>
    simp only [Permitted, not_and] at h
    by_cases hm : s.o.mode = .implicit
    · have := h hm
      cases hr : s.o.ready <;> simp [hr] at this <;> simp [Call.exec, onMatrix, Bcrs.compress, Cmd.bind_def, hm, hr]
    · refine ⟨.bcrsMatrixError, .inl rfl, ?_⟩
      simp [Call.exec, onMatrix, Bcrs.compress, Cmd.bind_def, hm]

theorem permitted_of_ok {c : Call B} {x y : Site B} (h : c.exec x = .ok () y) : Permitted c x.s.o.mode x.s.o.ready := by
  by_contra hn
  have hw : c.Writable x := by
    rintro cols rfl
    cases hi : x.it with
    | none => simp [Call.exec, hi] at h
    | some _ => rfl
  obtain ⟨e, -, he⟩ := rejected c x hw hn
  rw [h] at he; simp at he

theorem since_ok (t : List (Call B × Bool)) (c : Call B) :
    sinceSetSize (t ++ [(c, true)]) = if c.isSetSize then [] else sinceSetSize t ++ [c] := by
  unfold sinceSetSize
  rw [List.reverse_append]
  cases hc : c.isSetSize <;> simp [List.takeWhile_cons, hc]

theorem since_throw (t : List (Call B × Bool)) (c : Call B) :
    sinceSetSize (t ++ [(c, false)]) = if c.isSetSize then [] else sinceSetSize t := by
  unfold sinceSetSize
  rw [List.reverse_append]
  cases hc : c.isSetSize <;> simp [List.takeWhile_cons, hc]

/-- The invariant, for the accepted calls `l` since the last `setSize`. -/
structure BInv (x : Site B) (l : List (Call B)) : Prop where
  al0 : x.s.o.alloc = 0 → x.s.o.a = none
  it0 : x.s.o.ready = .notAllocated → x.it = none
  a0 : (x.s.o.ready = .building ∧ x.s.o.mode ≠ .implicit) ∨ x.s.o.ready = .rowSizesBuilt → x.s.o.a = none
  itm : x.s.o.ready = .building → x.it.isSome = true → x.s.o.mode ≠ .implicit
  imp : x.s.o.ready = .building → x.s.o.mode = .implicit → ∀ c ∈ l, c.isEntry = true ∨ c.isUnchecked = true
  it : x.s.o.ready = .building → ∀ c, x.it = some c → ∃ a b, l = a ++ [.createbegin] ++ b ∧
    (∀ c ∈ b, c.isCreatebegin = false) ∧ b.countP Call.isNextRow = c.i
  rsb : x.s.o.ready = .rowSizesBuilt → x.s.o.mode = .random ∧ ∃ a b, l = a ++ [.endrowsizes] ++ b ∧
    ∀ c ∈ b, c.isInsertion = true
  blt : x.s.o.ready = .built → Complete x.s.o.n l

theorem BInv.congr {x y : Site B} {l : List (Call B)} (I : BInv x l) (S : Same x.s y.s) (hi : y.it = x.it) : BInv y l := by
  obtain ⟨i1, i2, i3, i4, i5, i6, i7, i8⟩ := I
  constructor
  · rw [S.alloc, S.a]; exact i1
  · rw [S.ready, hi]; exact i2
  · rw [S.ready, S.mode, S.a]; exact i3
  · rw [S.ready, S.mode, hi]; exact i4
  · rw [S.ready, S.mode]; exact i5
  · rw [S.ready, hi]; exact i6
  · rw [S.ready, S.mode]; exact i7
  · rw [S.ready, S.n]; exact i8

theorem Complete.snoc {n : Nat} {l : List (Call B)} (h : Complete n l) {c : Call B} (hc : c.isUnchecked = true) :
    Complete n (l ++ [c]) := by
  have hu' : ∀ u : List (Call B), (∀ c ∈ u, c.isUnchecked = true) → ∀ d ∈ u ++ [c], d.isUnchecked = true := by
    intro u hu d hd
    rw [List.mem_append, List.mem_singleton] at hd
    rcases hd with hd | rfl
    · exact hu d hd
    · exact hc
  cases h with
  | random a b u hl hb hu => exact .random a b (u ++ [c]) (by rw [hl]; simp) hb (hu' u hu)
  | implicit a u hl ha hu => exact .implicit a (u ++ [c]) (by rw [hl]; simp) ha (hu' u hu)
  | rowWise a b u hl hb hc' he hu => exact .rowWise a b (u ++ [c]) (by rw [hl]; simp) hb hc' he (hu' u hu)

theorem mem_snoc {α : Type} {P : α → Prop} {l : List α} {c : α} (h : ∀ d ∈ l, P d) (hc : P c) : ∀ d ∈ l ++ [c], P d := by
  intro d hd
  rw [List.mem_append, List.mem_singleton] at hd
  rcases hd with hd | rfl
  · exact h d hd
  · exact hc

/-- Accepted calls that do not change the stage. -/
theorem BInv.snoc {x : Site B} {l : List (Call B)} (I : BInv x l) (c : Call B)
    (h1 : x.s.o.ready = .building → c.isCreatebegin = false ∧ c.isNextRow = false)
    (h2 : x.s.o.ready = .building → x.s.o.mode = .implicit → c.isEntry = true ∨ c.isUnchecked = true)
    (h3 : x.s.o.ready = .rowSizesBuilt → c.isInsertion = true)
    (h4 : x.s.o.ready = .built → c.isUnchecked = true) : BInv x (l ++ [c]) where
  al0 := I.al0
  it0 := I.it0
  a0 := I.a0
  itm := I.itm
  imp := fun q1 q2 => mem_snoc (I.imp q1 q2) (h2 q1 q2)
  it := by
    intro q1 k hk
    obtain ⟨a, b, e1, e2, e3⟩ := I.it q1 k hk
    refine ⟨a, b ++ [c], by rw [e1]; simp, mem_snoc e2 (h1 q1).1, ?_⟩
    rw [List.countP_append, e3]
    simp [(h1 q1).2]
  rsb := by
    intro q
    obtain ⟨m, a, b, e1, e2⟩ := I.rsb q
    exact ⟨m, a, b ++ [c], by rw [e1]; simp, mem_snoc e2 (h3 q)⟩
  blt := fun q => (I.blt q).snoc (h4 q)

theorem onMatrix_ok {c : BC B Unit} {it : Option CIter} {x y : Site B} (h : onMatrix c it x = .ok () y) :
    c x.s = .ok () y.s ∧ y.it = it := by
  unfold onMatrix at h
  cases hc : c x.s with
  | ok u s => rw [hc] at h; simp at h; rw [← h]; exact ⟨rfl, rfl⟩
  | throw e s => rw [hc] at h; simp at h
  | ub => rw [hc] at h; simp at h

theorem onMatrix_throw {c : BC B Unit} {it : Option CIter} {x y : Site B} {e : Exc} (h : onMatrix c it x = .throw e y) :
    c x.s = .throw e y.s ∧ y.it = it := by
  unfold onMatrix at h
  cases hc : c x.s with
  | ok u s => rw [hc] at h; simp at h
  | throw e s => rw [hc] at h; simp at h; rw [← h.2, h.1]; exact ⟨rfl, rfl⟩
  | ub => rw [hc] at h; simp at h

theorem onIter_ok {c : BC B CIter} {x y : Site B} (h : onIter c x = .ok () y) :
    ∃ k, c x.s = .ok k y.s ∧ y.it = some k := by
  unfold onIter at h
  cases hc : c x.s with
  | ok u s => rw [hc] at h; simp at h; rw [← h]; exact ⟨u, rfl, rfl⟩
  | throw e s => rw [hc] at h; simp at h
  | ub => rw [hc] at h; simp at h

theorem onIter_throw {c : BC B CIter} {x y : Site B} {e : Exc} (h : onIter c x = .throw e y) :
    c x.s = .throw e y.s ∧ y.it = x.it := by
  unfold onIter at h
  cases hc : c x.s with
  | ok u s => rw [hc] at h; simp at h
  | throw e s => rw [hc] at h; simp at h; rw [← h.2, h.1]; exact ⟨rfl, rfl⟩
  | ub => rw [hc] at h; simp at h

theorem foldl_insert_i (cols : List Nat) : ∀ c : CIter, (cols.foldl CIter.insert c).i = c.i := by
  induction cols with
  | nil => intro c; rfl
  | cons a l ih => intro c; rw [List.foldl_cons, ih]; rfl

theorem BInv.ok {x y : Site B} {l : List (Call B)} (I : BInv x l) (c : Call B) (h : c.exec x = .ok () y) :
    BInv y (if c.isSetSize then [] else l ++ [c]) := by
  have hp := permitted_of_ok h
  have simple : ∀ f : BC B Unit, onMatrix f x.it x = .ok () y → Fix f → BInv x (l ++ [c]) → BInv y (l ++ [c]) := by
    intro f hf hF I'
    obtain ⟨q1, q2⟩ := onMatrix_ok hf
    exact I'.congr (hF _ _ (.inl ⟨_, q1⟩)) q2
  cases c with
  | setBuildMode bm =>
    obtain ⟨q1, q2⟩ := onMatrix_ok h
    unfold Bcrs.setBuildMode at q1
    split at q1
    · rename_i hr
      simp at q1
      have hI := I.it0 hr
      have hr' : y.s.o.ready = .notAllocated := by rw [← q1]; exact hr
      constructor
      · rw [← q1]; exact I.al0
      · intro _; rw [q2]; exact hI
      · rw [hr']; simp
      · rw [hr']; simp
      · rw [hr']; simp
      · rw [hr']; simp
      · rw [hr']; simp
      · rw [hr']; simp
    · split at q1
      · rename_i hr hs
        simp at q1
        have hne : bm ≠ .implicit := by rcases hs.2.2 with q | q <;> simp [q]
        have hxne : x.s.o.mode ≠ .implicit := by rcases hs.2.1 with q | q | q <;> simp [q]
        have hr' : y.s.o.ready = .building := by rw [← q1]; exact hs.1
        have hm' : y.s.o.mode = bm := by rw [← q1]
        constructor
        · rw [← q1]; exact I.al0
        · rw [hr']; simp
        · intro _; rw [← q1]; exact I.a0 (.inl ⟨hs.1, hxne⟩)
        · intro _ _; rw [hm']; exact hne
        · intro _ q; rw [hm'] at q; exact absurd q hne
        · intro _ k hk
          rw [q2] at hk
          obtain ⟨a, b, e1, e2, e3⟩ := I.it hs.1 k hk
          exact ⟨a, b ++ [.setBuildMode bm], by rw [e1]; simp [Call.isSetSize], mem_snoc e2 rfl, by
            rw [List.countP_append, e3]; simp [Call.isNextRow]⟩
        · rw [hr']; simp
        · rw [hr']; simp
      · simp at q1
  | setParameters avg cbs =>
    have hr : x.s.o.ready = .notAllocated := hp
    obtain ⟨q1, q2⟩ := onMatrix_ok h
    unfold setImplicitBuildModeParameters at q1
    split at q1
    · simp at q1
    · split at q1
      · simp at q1
      · simp at q1
        have hI := I.it0 hr
        have hr' : y.s.o.ready = .notAllocated := by rw [← q1]; exact hr
        constructor
        · rw [← q1]; exact I.al0
        · intro _; rw [q2]; exact hI
        · rw [hr']; simp
        · rw [hr']; simp
        · rw [hr']; simp
        · rw [hr']; simp
        · rw [hr']; simp
        · rw [hr']; simp
  | setSize r c k =>
    obtain ⟨q1, q2⟩ := onMatrix_ok h
    rcases setSize_ends I.al0 (.inl ⟨_, q1⟩) with ⟨_, p1, p2, p3, p4⟩ | ⟨⟨e, p⟩, _⟩
    · constructor
      · exact p4
      · intro _; exact q2
      · intro q; rcases q with q | q
        · exact p3 q.2
        · rw [p1] at q; simp at q
      · intro _ q; rw [q2] at q; simp at q
      · intro _ _; simp [Call.isSetSize]
      · intro _ k hk; rw [q2] at hk; simp at hk
      · rw [p1]; simp
      · rw [p1]; simp
    · rw [q1] at p; simp at p
  | setrowsize i sz =>
    exact simple _ h (fix_setrowsize _ _) (I.snoc _ (fun _ => ⟨rfl, rfl⟩)
      (fun _ q => by rw [hp.1] at q; simp at q) (fun q => by rw [hp.2] at q; simp at q) (fun q => by rw [hp.2] at q; simp at q))
  | incrementrowsize i sz =>
    exact simple _ h (fix_incrementrowsize _ _) (I.snoc _ (fun _ => ⟨rfl, rfl⟩)
      (fun _ q => by rw [hp.1] at q; simp at q) (fun q => by rw [hp.2] at q; simp at q) (fun q => by rw [hp.2] at q; simp at q))
  | addindex i sz =>
    exact simple _ h (fix_addindex _ _) (I.snoc _ (fun q => by rw [hp.2] at q; simp at q)
      (fun q => by rw [hp.2] at q; simp at q) (fun q => rfl) (fun q => by rw [hp.2] at q; simp at q))
  | setIndices i cols =>
    exact simple _ h (fix_setIndices _ _) (I.snoc _ (fun _ => ⟨rfl, rfl⟩)
      (fun _ _ => .inr rfl) (fun q => rfl) (fun q => rfl))
  | setIndicesNoSort i cols =>
    exact simple _ h (fix_setIndicesNoSort _ _) (I.snoc _ (fun _ => ⟨rfl, rfl⟩)
      (fun _ _ => .inr rfl) (fun q => rfl) (fun q => rfl))
  | entry i j f =>
    exact simple _ h (fix_entryChecked _ _ _) (I.snoc _ (fun _ => ⟨rfl, rfl⟩)
      (fun _ _ => .inl rfl) (fun q => by rw [hp.2] at q; simp at q) (fun q => by rw [hp.2] at q; simp at q))
  | endrowsizes =>
    obtain ⟨q1, q2⟩ := onMatrix_ok h
    have ha := I.a0 (.inl ⟨hp.2, by rw [hp.1]; simp⟩)
    rcases endrowsizes_ends ha (.inl ⟨_, q1⟩) with ⟨_, p1, p2, p3, p4, p5⟩ | ⟨⟨e, p⟩, _⟩
    · constructor
      · intro _; exact p5
      · rw [p3]; simp
      · intro _; exact p5
      · rw [p3]; simp
      · rw [p3]; simp
      · rw [p3]; simp
      · intro _; exact ⟨p4, l, [], by simp [Call.isSetSize], by simp⟩
      · rw [p3]; simp
    · rw [q1] at p; simp at p
  | endindices =>
    obtain ⟨q1, q2⟩ := onMatrix_ok h
    have ha := I.a0 (.inr hp.2)
    obtain ⟨_, a, b, e1, e2⟩ := I.rsb hp.2
    rcases endindices_ends ha (.inl ⟨_, q1⟩) with ⟨_, p1, p2, p3, p4⟩ | ⟨⟨e, p⟩, _⟩
    · constructor
      · exact p4
      · rw [p3]; simp
      · rw [p3]; simp
      · rw [p3]; simp
      · rw [p3]; simp
      · rw [p3]; simp
      · rw [p3]; simp
      · intro _
        exact .random a b [] (by simp [Call.isSetSize, e1]) e2 (by simp)
    · rw [q1] at p; simp at p
  | createbegin =>
    obtain ⟨k, q1, q2⟩ := onIter_ok h
    rcases createbegin_ends (.inl ⟨_, q1⟩) with ⟨k', hk, p1, p2, p3, p4, p5, p6, p7, p8⟩ | ⟨⟨e, p⟩, _⟩
    · rw [q1] at hk
      simp at hk
      have hne : x.s.o.mode ≠ .implicit := by rcases p1 with q | q <;> simp [q]
      have ha := I.a0 (.inl ⟨p2, hne⟩)
      constructor
      · intro _; rw [p6]; exact ha
      · rw [p8]; split <;> simp
      · intro _; rw [p6]; exact ha
      · intro _ _; rw [p4]; simp
      · rw [p4]; simp
      · intro _ c hc
        rw [q2] at hc
        simp at hc
        exact ⟨l, [], by simp [Call.isSetSize], by simp, by rw [← hc, hk, p3]; rfl⟩
      · rw [p8]; split <;> simp
      · intro hb
        have hn : x.s.o.n = 0 := by
          by_contra hn
          rw [p8, if_neg hn] at hb; simp at hb
        exact .rowWise l [] [] (by simp [Call.isSetSize]) (by rw [p5, hn]; rfl) (by simp) (.inl rfl) (by simp)
    · rw [q1] at p; simp at p
  | nextRow cols =>
    have hr : x.s.o.ready = .building := hp
    cases hi : x.it with
    | none => simp [Call.exec, hi] at h
    | some k =>
      simp only [Call.exec, hi] at h
      obtain ⟨k', q1, q2⟩ := onIter_ok h
      have hne := I.itm hr (by rw [hi]; rfl)
      have ha := I.a0 (.inl ⟨hr, hne⟩)
      obtain ⟨a, b, e1, e2, e3⟩ := I.it hr k hi
      rcases next_ends ha (.inl ⟨_, q1⟩) with ⟨k'', hk, p1, p2, p3, p4, p5, p6⟩ | ⟨⟨e, p⟩, _⟩
      · rw [q1] at hk
        simp at hk
        rw [foldl_insert_i] at p2
        have hcnt : (b ++ [Call.nextRow cols]).countP Call.isNextRow = k.i + 1 := by
          rw [List.countP_append, e3]; simp [Call.isNextRow]
        have hlist : (if (Call.nextRow cols : Call B).isSetSize then [] else l ++ [Call.nextRow cols]) =
            a ++ [.createbegin] ++ (b ++ [.nextRow cols]) := by simp [Call.isSetSize, e1]
        have hcr : ∀ c ∈ b ++ [Call.nextRow cols], c.isCreatebegin = false := mem_snoc e2 rfl
        constructor
        · exact p5
        · rcases p6 with ⟨_, q⟩ | ⟨q, _⟩ <;> (rw [q]; simp)
        · intro hh
          rcases p6 with ⟨_, q⟩ | ⟨q, q'⟩
          · rw [q] at hh; simp at hh
          · exact q'
        · intro _ _; rw [p3]; exact hne
        · intro _ q; rw [p3] at q; exact absurd q hne
        · intro _ c hc
          rw [q2] at hc
          simp at hc
          exact ⟨a, b ++ [.nextRow cols], hlist, hcr, by rw [hcnt, ← hc, hk, p2]⟩
        · rcases p6 with ⟨_, q⟩ | ⟨q, _⟩ <;> (rw [q]; simp)
        · intro hb
          rcases p6 with ⟨q0, q⟩ | ⟨q, _⟩
          · refine .rowWise a (b ++ [.nextRow cols]) [] (by rw [hlist]; simp) ?_ hcr (.inr ⟨b, cols, rfl⟩) (by simp)
            rw [hcnt, p4, ← q0, foldl_insert_i]
          · rw [q] at hb; simp at hb
      · rw [q1] at p; simp at p
  | compress =>
    obtain ⟨q1, q2⟩ := onMatrix_ok h
    have hI := I.imp hp.2 hp.1
    rcases compress_ends (.inl ⟨_, q1⟩) with ⟨_, p1, p2, p3, p4, p5⟩ | ⟨⟨e, p⟩, _⟩
    · constructor
      · rw [p4, p5]; exact I.al0
      · rw [p3]; simp
      · rw [p3]; simp
      · rw [p3]; simp
      · rw [p3]; simp
      · rw [p3]; simp
      · rw [p3]; simp
      · intro _
        exact .implicit l [] (by simp [Call.isSetSize]) hI (by simp)
    · rw [q1] at p; simp at p

theorem BInv.throw {x y : Site B} {l : List (Call B)} (I : BInv x l) (c : Call B) {e : Exc} (h : c.exec x = .throw e y) :
    BInv y (if c.isSetSize then [] else l) := by
  have simple : ∀ f : BC B Unit, onMatrix f x.it x = .throw e y → Fix f → BInv y l := by
    intro f hf hF
    obtain ⟨q1, q2⟩ := onMatrix_throw hf
    exact I.congr (hF _ _ (.inr ⟨_, q1⟩)) q2
  have hpw : c.Writable x := by
    rintro cols rfl
    cases hi : x.it with
    | none => simp [Call.exec, hi] at h
    | some _ => rfl
  by_cases hp : Permitted c x.s.o.mode x.s.o.ready
  swap
  · obtain ⟨e', -, he⟩ := rejected c x hpw hp
    rw [h] at he
    simp at he
    have hns : c.isSetSize = false := by cases c <;> first | rfl | exact absurd trivial hp
    rw [hns, he.2]
    exact I
  cases c with
  | setBuildMode bm =>
    refine simple _ h ?_
    rintro s s' (⟨u, q⟩ | ⟨e', q⟩)
    · obtain ⟨q1, q2⟩ := onMatrix_throw h
      exfalso
      unfold Bcrs.setBuildMode at q1
      split at q1
      · simp at q1
      · rename_i hn
        split at q1
        · simp at q1
        · rename_i hn'
          rcases hp with hp | ⟨p1, p2, p3⟩
          · exact hn hp
          · refine hn' ⟨p1, ?_, p3⟩
            cases hm : x.s.o.mode <;> simp [hm] at p2 ⊢
    · unfold Bcrs.setBuildMode at q
      split at q
      · simp at q
      · split at q
        · simp at q
        · simp at q; rw [← q.2]; exact Same.refl s
  | setParameters avg cbs =>
    obtain ⟨q1, q2⟩ := onMatrix_throw h
    refine I.congr ?_ q2
    unfold setImplicitBuildModeParameters at q1
    split at q1
    · simp at q1; rw [← q1.2]; exact Same.refl _
    · split at q1
      · simp at q1; rw [← q1.2]; exact Same.refl _
      · simp at q1
  | setSize r c k =>
    obtain ⟨q1, q2⟩ := onMatrix_throw h
    rcases setSize_ends I.al0 (.inr ⟨_, q1⟩) with ⟨p, _⟩ | ⟨_, p1, p2, p3⟩
    · rw [q1] at p; simp at p
    · constructor
      · intro _; exact p3
      · intro _; exact q2
      · intro _; exact p3
      · rw [p1]; simp
      · rw [p1]; simp
      · rw [p1]; simp
      · rw [p1]; simp
      · rw [p1]; simp
  | setrowsize i sz => exact simple _ h (fix_setrowsize _ _)
  | incrementrowsize i sz => exact simple _ h (fix_incrementrowsize _ _)
  | addindex i sz => exact simple _ h (fix_addindex _ _)
  | setIndices i cols => exact simple _ h (fix_setIndices _ _)
  | setIndicesNoSort i cols => exact simple _ h (fix_setIndicesNoSort _ _)
  | entry i j f => exact simple _ h (fix_entryChecked _ _ _)
  | endrowsizes =>
    obtain ⟨q1, q2⟩ := onMatrix_throw h
    have ha := I.a0 (.inl ⟨hp.2, by rw [hp.1]; simp⟩)
    rcases endrowsizes_ends ha (.inr ⟨_, q1⟩) with ⟨p, _⟩ | ⟨_, p⟩
    · rw [q1] at p; simp at p
    · exact I.congr (by rw [p]; exact Same.refl _) q2
  | endindices =>
    obtain ⟨q1, q2⟩ := onMatrix_throw h
    have ha := I.a0 (.inr hp.2)
    rcases endindices_ends ha (.inr ⟨_, q1⟩) with ⟨p, _⟩ | ⟨_, p⟩
    · rw [q1] at p; simp at p
    · exact I.congr (by rw [p]; exact Same.refl _) q2
  | createbegin =>
    obtain ⟨q1, q2⟩ := onIter_throw h
    rcases createbegin_ends (.inr ⟨_, q1⟩) with ⟨_, p, _⟩ | ⟨_, p⟩
    · rw [q1] at p; simp at p
    · exact I.congr (by rw [p]; exact Same.refl _) q2
  | nextRow cols =>
    have hr : x.s.o.ready = .building := hp
    cases hi : x.it with
    | none => simp [Call.exec, hi] at h
    | some k =>
      simp only [Call.exec, hi] at h
      obtain ⟨q1, q2⟩ := onIter_throw h
      have hne := I.itm hr (by rw [hi]; rfl)
      have ha := I.a0 (.inl ⟨hr, hne⟩)
      rcases next_ends ha (.inr ⟨_, q1⟩) with ⟨_, p, _⟩ | ⟨_, p⟩
      · rw [q1] at p; simp at p
      · exact I.congr p q2
  | compress =>
    obtain ⟨q1, q2⟩ := onMatrix_throw h
    rcases compress_ends (.inr ⟨_, q1⟩) with ⟨p, _⟩ | ⟨_, p⟩
    · rw [q1] at p; simp at p
    · exact I.congr p q2

theorem runs_inv {h : Heap B} {x : Site B} {t : List (Call B × Bool)} (r : Runs h x t) : BInv x (sinceSetSize t) := by
  induction r with
  | start => constructor <;> simp [empty, sinceSetSize]
  | ok c _ he ih => rw [since_ok]; exact ih.ok c he
  | throw c e _ he ih => rw [since_throw]; exact ih.throw c he

end Bcrs
end Istl
