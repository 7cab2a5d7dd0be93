import Verif.Lemmas.Dependency

/-!
# The three criteria, row by row
-/

namespace Istl
namespace Amg

variable {B R : Type} [Zero B] [Field R] [LinearOrder R]

theorem entry_of_mem {A : SpMat B} {i : Nat} (h : (A.row i).Asc) {e : Nat × B} (he : e ∈ A.row i) : A.entry i e.1 = e.2 :=
  Row.val_of_mem h (show (e.1, e.2) ∈ A.row i from he)

theorem has_mem {A : SpMat B} {i j : Nat} (hA : A.WF) (h : A.Has i j) : (j, A.entry i j) ∈ A.row i := by
  obtain ⟨hi, b, hb⟩ := h
  have : A.entry i j = b := entry_of_mem (hA i hi).1 hb
  rw [this]; exact hb

theorem diagNorm_ok {N : NormF B R} {A : SpMat B} (hA : A.WF) {j : Nat} (h : A.Has j j) :
    diagNorm N A j = .ok (N.val (A.entry j j)) := by
  unfold diagNorm
  rw [Row.get_of_mem _ (hA j h.1).1 (has_mem hA h), Res.ok_bind]

theorem counts_iff (N : NormF B R) (b : B) : N.counts (N.val b) = true ↔ N.Counts b := by
  unfold NormF.counts NormF.Counts
  cases N.keepsSign <;> simp

theorem mem_offDiag_iff {A : SpMat B} (hA : A.WF) {v : Nat} (hv : v < A.n) (e : Nat × B) :
    e ∈ offDiag v (A.row v) ↔ Neighbour A v e.1 ∧ e.2 = A.entry v e.1 := by
  rw [mem_offDiag]
  constructor
  · rintro ⟨h, hne⟩
    exact ⟨⟨⟨hv, e.2, h⟩, hne⟩, (entry_of_mem (hA v hv).1 h).symm⟩
  · rintro ⟨⟨h, hne⟩, he⟩
    refine ⟨?_, hne⟩
    have := has_mem hA h
    rw [← he] at this
    exact this

theorem StoredDiag.lt {A : SpMat B} (H : StoredDiag A) {v j : Nat} (h : A.Has v j) : j < A.n := by
  obtain ⟨hv, b, hb⟩ := h
  rw [H.sq]
  exact (H.wf v hv).2 _ hb

/-! ## `SymmetricMatrixDependency` -/

/-- The values of the first pass, in the order of the code. -/
def smdVal (N : NormF B R) (A : SpMat B) (v : Nat) (e : Nat × B) : R :=
  if N.counts (N.val e.2) = true then N.val e.2 / N.val (A.entry v v) * N.val e.2 / N.val (A.entry e.1 e.1) else 0

/-- The maximum of the first pass. -/
def smdMax (N : NormF B R) (lo : R) (A : SpMat B) (v : Nat) (l : List (Nat × B)) : R :=
  l.foldl (fun m e => if N.counts (N.val e.2) = true then max m (smdVal N A v e) else m) lo

theorem smd_first (N : NormF B R) (p : DepPar R) (A : SpMat B) (v : Nat) :
    ∀ (l : List (Nat × B)) (s : CritSt R), s.diag = N.val (A.entry v v) →
      (∀ e ∈ l, diagNorm N A e.1 = .ok (N.val (A.entry e.1 e.1))) → s.it + l.length ≤ s.vals.length →
      ∃ s', l.foldlM (fun s e => (symMatrixCrit N p).examine A e s) s = .ok s' ∧ s'.diag = s.diag ∧
        s'.maxV = smdMax N s.maxV A v l ∧ (∀ k < s.it, s'.vals[k]? = s.vals[k]?) ∧
        ∀ (k : Nat) (h : k < l.length), s'.vals[s.it + k]? = some (smdVal N A v l[k]) := by
  intro l
  induction l with
  | nil =>
    intro s _ _ _
    exact ⟨s, rfl, rfl, rfl, fun _ _ => rfl, by simp⟩
  | cons e r ih =>
    intro s hd hg hlen
    simp only [List.length_cons] at hlen
    have hw : ∀ x, wr s.vals s.it x = .ok (s.vals.set s.it x) := fun x => wr_lt x (by omega)
    have hstep : ∃ m, (symMatrixCrit N p).examine A e s = .ok { s with vals := s.vals.set s.it (smdVal N A v e), maxV := m, it := s.it + 1 } ∧
        m = (if N.counts (N.val e.2) = true then max s.maxV (smdVal N A v e) else s.maxV) := by
      by_cases hc : N.counts (N.val e.2) = true
      · refine ⟨_, ?_, rfl⟩
        simp only [symMatrixCrit, hc, if_true, hg e (by simp), Res.ok_bind, hw, smdVal, hd]
      · refine ⟨_, ?_, rfl⟩
        simp only [symMatrixCrit, hc, hw, Res.ok_bind, smdVal]
        rfl
    obtain ⟨m, e1, hm⟩ := hstep
    obtain ⟨s', e2, h1, h2, h3, h4⟩ := ih { s with vals := s.vals.set s.it (smdVal N A v e), maxV := m, it := s.it + 1 } hd
      (fun e he => hg e (by simp [he])) (by simp; omega)
    refine ⟨s', ?_, h1, ?_, ?_, ?_⟩
    · rw [List.foldlM_cons, e1, Res.ok_bind, e2]
    · rw [h2]; simp only [smdMax, List.foldl_cons, hm]
    · intro k hk
      rw [h3 k (by dsimp only; omega)]
      dsimp only
      rw [List.getElem?_set_ne (by omega)]
    · intro k hk
      cases k with
      | zero =>
        rw [h3 _ (by dsimp only; omega)]
        simp only [Nat.add_zero, List.getElem_cons_zero]
        rw [List.getElem?_set_self (by omega)]
      | succ k =>
        have := h4 k (by simpa using hk)
        simp only [List.getElem_cons_succ]
        rw [← this]
        congr 1
        dsimp only
        omega

/-- The flags of the second pass. -/
def smdFlags (N : NormF B R) (p : DepPar R) (A : SpMat B) (v : Nat) (M : R) (P : Props) (e : Nat × B) : Props :=
  if smdVal N A v e > p.alpha * M then P.setBoth v e.1 else P

theorem smd_second (N : NormF B R) (p : DepPar R) (A : SpMat B) (v : Nat) (M : R) :
    ∀ (l : List (Nat × B)) (s : CritSt R) (P : Props), s.maxV = M →
      (∀ (k : Nat) (h : k < l.length), s.vals[s.it + k]? = some (smdVal N A v l[k])) →
      ∃ s', l.foldlM (fun s e => (symMatrixCrit N p).examineEdge A (v, e.1) e s) (s, P) =
        .ok (s', l.foldl (smdFlags N p A v M) P) := by
  intro l
  induction l with
  | nil => intro s P _ _; exact ⟨s, rfl⟩
  | cons e r ih =>
    intro s P hM hv
    have h0 : rd s.vals s.it = .ok (smdVal N A v e) := by
      have := hv 0 (by simp)
      simp only [Nat.add_zero, List.getElem_cons_zero] at this
      unfold rd; rw [this]
    obtain ⟨s', e'⟩ := ih { s with it := s.it + 1 } (smdFlags N p A v M P e) hM (by
      intro k hk
      have := hv (k + 1) (by simpa using hk)
      simp only [List.getElem_cons_succ] at this
      rw [← this]
      congr 1
      dsimp only
      omega)
    refine ⟨s', ?_⟩
    rw [List.foldlM_cons]
    have : (symMatrixCrit N p).examineEdge A (v, e.1) e (s, P) = .ok ({ s with it := s.it + 1 }, smdFlags N p A v M P e) := by
      simp only [symMatrixCrit, h0, Res.ok_bind, smdFlags, hM]
    rw [this, Res.ok_bind, e', List.foldl_cons]

theorem smdVal_eq {N : NormF B R} {A : SpMat B} (hA : A.WF) {v : Nat} (hv : v < A.n) {e : Nat × B} (he : e ∈ offDiag v (A.row v)) :
    smdVal N A v e = sqCoupling N A v e.1 := by
  have h := ((mem_offDiag_iff hA hv e).mp he).2
  unfold smdVal sqCoupling
  rw [← h]
  by_cases hc : N.Counts e.2
  · rw [if_pos ((counts_iff N e.2).mpr hc), if_pos hc]
    rw [div_mul_eq_mul_div, div_div]
  · rw [if_neg (fun h => hc ((counts_iff N e.2).mp h)), if_neg hc]

theorem smdMax_isMax {N : NormF B R} (lo : R) {A : SpMat B} (hA : A.WF) {v : Nat} (hv : v < A.n) :
    IsMaxFrom lo (sqSet N A v) (smdMax N lo A v (offDiag v (A.row v))) := by
  have h := foldl_max_isMax lo (fun e : Nat × B => N.counts (N.val e.2)) (smdVal N A v) (offDiag v (A.row v))
  have : sqSet N A v = {x | ∃ e ∈ offDiag v (A.row v), N.counts (N.val e.2) = true ∧ x = smdVal N A v e} := by
    ext x
    constructor
    · rintro ⟨j, hj, hc, rfl⟩
      have hm : (j, A.entry v j) ∈ offDiag v (A.row v) := (mem_offDiag_iff hA hv _).mpr ⟨hj, rfl⟩
      exact ⟨_, hm, (counts_iff N _).mpr hc, (smdVal_eq hA hv hm).symm⟩
    · rintro ⟨e, he, hc, rfl⟩
      obtain ⟨h1, h2⟩ := (mem_offDiag_iff hA hv e).mp he
      refine ⟨e.1, h1, ?_, smdVal_eq hA hv he⟩
      rw [← h2]
      exact (counts_iff N _).mp hc
  rw [this]
  exact h

theorem noOff_iff {frob : B → R} (hfrob : ∀ b, 0 ≤ frob b) {A : SpMat B} (hA : A.WF) {v : Nat} (hv : v < A.n) :
    ((offDiag v (A.row v)).map fun e => frob e.2).foldl max 0 = 0 ↔ NoOff frob A v := by
  rw [foldl_max_zero (fun e : Nat × B => frob e.2) _ (fun e _ => hfrob e.2)]
  constructor
  · intro h j hj
    exact h (j, A.entry v j) ((mem_offDiag_iff hA hv _).mpr ⟨hj, rfl⟩)
  · intro h e he
    obtain ⟨h1, h2⟩ := (mem_offDiag_iff hA hv e).mp he
    rw [h2]
    exact h _ h1

theorem smd_vertex {N : NormF B R} (p : DepPar R) (frob : B → R) (hfrob : ∀ b, 0 ≤ frob b) {A : SpMat B} (H : StoredDiag A)
    (first : Bool) {v : Nat} (hv : v < A.n) (hne : N.val (A.entry v v) ≠ 0) (P : Props) :
    ∃ P', depVertex (symMatrixCrit N p) frob A first v P = .ok P' ∧
      Adds P P' (fun u => u = v ∧ smdMax N p.lo A v (offDiag v (A.row v)) < p.beta)
        (fun u => u = v ∧ first = true ∧ NoOff frob A v)
        (fun a b => a = v ∧ ¬ smdMax N p.lo A v (offDiag v (A.row v)) < p.beta ∧ Neighbour A v b ∧
          p.alpha * smdMax N p.lo A v (offDiag v (A.row v)) < sqCoupling N A v b)
        (fun a b => a = v ∧ ¬ smdMax N p.lo A v (offDiag v (A.row v)) < p.beta ∧ Neighbour A v b ∧
          p.alpha * smdMax N p.lo A v (offDiag v (A.row v)) < sqCoupling N A v b) := by
  have hA := H.wf
  have h0 : (symMatrixCrit N p).initRow A v = .ok ⟨v, p.lo, N.val (A.entry v v), List.replicate (A.row v).length 0, 0⟩ := by
    simp only [symMatrixCrit, diagNorm_ok hA (H.has v hv), Res.ok_bind]
  obtain ⟨s1, e1, hd, hm, _, hvals⟩ := smd_first N p A v (offDiag v (A.row v)) ⟨v, p.lo, N.val (A.entry v v),
    List.replicate (A.row v).length 0, 0⟩ rfl (by
      intro e he
      have h1 := ((mem_offDiag_iff hA hv e).mp he).1.1
      exact diagNorm_ok hA (H.has _ (H.lt h1))) (by
      simp only [List.length_replicate, Nat.zero_add]
      exact List.length_filter_le _ _)
  dsimp only at hd hm hvals
  set M := smdMax N p.lo A v (offDiag v (A.row v)) with hMdef
  have h2 : (symMatrixCrit N p).isIsolated s1 = .ok (decide (M < p.beta), { s1 with it := 0 }) := by
    simp only [symMatrixCrit]
    rw [if_neg (by rw [hd]; exact hne), hm]
  obtain ⟨P', e, hP⟩ := depVertex_of (symMatrixCrit N p) frob A first v (hA v hv).1 _ s1 _ _ (smdFlags N p A v M) h0 e1 h2
    (by
      intro _ P
      exact smd_second N p A v M _ _ P hm (by
        intro k hk
        have := hvals k hk
        simpa using this))
    (fun e a b => smdVal N A v e > p.alpha * M ∧ a = v ∧ b = e.1) (fun e a b => smdVal N A v e > p.alpha * M ∧ a = v ∧ b = e.1)
    (by
      intro e _ P
      unfold smdFlags
      split
      · rename_i hc
        refine (adds_setBoth P v e.1).congr ?_ ?_ ?_ ?_ <;> simp [hc]
      · rename_i hc
        refine (Adds.refl P).congr ?_ ?_ ?_ ?_ <;> simp [hc])
    P
  have key : ∀ a b, (decide (M < p.beta) = false ∧ ∃ e ∈ offDiag v (A.row v), smdVal N A v e > p.alpha * M ∧ a = v ∧ b = e.1) ↔
      (a = v ∧ ¬ M < p.beta ∧ Neighbour A v b ∧ p.alpha * M < sqCoupling N A v b) := by
    intro a b
    constructor
    · rintro ⟨h1, e', he, h2, rfl, rfl⟩
      refine ⟨rfl, by simpa using h1, ((mem_offDiag_iff hA hv e').mp he).1, ?_⟩
      rw [← smdVal_eq hA hv he]; exact h2
    · rintro ⟨rfl, h1, h2, h3⟩
      have he : (b, A.entry a b) ∈ offDiag a (A.row a) := (mem_offDiag_iff hA hv _).mpr ⟨h2, rfl⟩
      refine ⟨by simpa using h1, _, he, ?_, rfl, rfl⟩
      rw [smdVal_eq hA hv he]; exact h3
  refine ⟨P', e, hP.congr (by simp) ?_ key key⟩
  intro u
  rw [noOff_iff hfrob hA hv]

/-! ## `SymmetricDependency` -/

/-- What `find` gives in a well formed row. -/
theorem opposite_of_has {A : SpMat B} (hA : A.WF) {j v : Nat} (h : A.Has j v) : opposite A j v = .ok (some (A.entry j v)) := by
  have hm := has_mem hA h
  have hasc := (hA j h.1).1
  unfold opposite Row.find
  rcases Row.search (A.row j) hasc v with ⟨k, hk, hlb, he⟩ | ⟨hno, _⟩
  · have hval : (A.row j)[k].2 = A.entry j v := by
      have h1 : (v, (A.row j)[k].2) ∈ A.row j := by
        have := List.getElem_mem hk
        rw [← he]; exact this
      exact hasc.unique h1 hm
    simp only [hlb, Res.ok_bind]
    rw [if_neg (by omega), rd_eq _ _ (show k < ((A.row j).map Prod.fst).length by simpa using hk)]
    simp only [List.getElem_map, he, Res.ok_bind, if_true]
    rw [rd_eq _ _ hk, Res.ok_bind, hval]
  · exact absurd hm (hno _)

theorem opposite_of_not {A : SpMat B} (hA : A.WF) {j v : Nat} (hj : j < A.n) (h : ¬ A.Has j v) : opposite A j v = .ok none := by
  have hasc := (hA j hj).1
  unfold opposite Row.find
  rcases Row.search (A.row j) hasc v with ⟨k, hk, hlb, he⟩ | ⟨_, hlb | ⟨k, hk, hlb, he⟩⟩
  · exfalso
    apply h
    refine ⟨hj, (A.row j)[k].2, ?_⟩
    rw [← he]; exact List.getElem_mem hk
  · simp [hlb]
  · simp only [hlb, Res.ok_bind]
    rw [if_neg (by omega), rd_eq _ _ (show k < ((A.row j).map Prod.fst).length by simpa using hk)]
    simp only [List.getElem_map, he, Res.ok_bind]
    rfl

theorem findEdge_none {A : SpMat B} {s t : Nat} (hs : s < A.n) : findEdge A s t = none ↔ ¬ A.Has s t := by
  unfold findEdge
  cases h : ((A.row s).map Prod.fst).findIdx? (· == t) with
  | none =>
    simp only [true_iff]
    rintro ⟨_, b, hb⟩
    rw [List.findIdx?_eq_none_iff] at h
    have := h t (List.mem_map.mpr ⟨(t, b), hb, rfl⟩)
    simp at this
  | some k =>
    simp only [reduceCtorEq, false_iff, not_not]
    rw [List.findIdx?_eq_some_iff_getElem] at h
    obtain ⟨hk, h1, _⟩ := h
    have hk' : k < (A.row s).length := by simpa using hk
    refine ⟨hs, (A.row s)[k].2, ?_⟩
    have : (A.row s)[k].1 = t := by simpa using h1
    rw [← this]
    exact List.getElem_mem hk'

open Classical in
/-- The maximum of the first pass. -/
noncomputable def symMax (N : NormF B R) (lo : R) (A : SpMat B) (v : Nat) (l : List (Nat × B)) : R :=
  l.foldl (fun m e => if decide (BothWays N A v e.1) = true then max m (prodCoupling N A v e.1) else m) lo

theorem sym_first {N : NormF B R} (p : DepPar R) {A : SpMat B} (H : StoredDiag A) {v : Nat} (hv : v < A.n) :
    ∀ (l : List (Nat × B)) (s : CritSt R), s.diag = N.val (A.entry v v) → s.row = v → (∀ e ∈ l, e ∈ offDiag v (A.row v)) →
      l.foldlM (fun s e => (symCrit N p).examine A e s) s = .ok { s with maxV := symMax N s.maxV A v l } := by
  classical
  intro l
  induction l with
  | nil => intro s _ _ _; rfl
  | cons e r ih =>
    intro s hd hr hl
    have he := hl e (by simp)
    obtain ⟨hnb, heq⟩ := (mem_offDiag_iff H.wf hv e).mp he
    have hjn := H.lt hnb.1
    have hstep : (symCrit N p).examine A e s =
        .ok { s with maxV := if decide (BothWays N A v e.1) = true then max s.maxV (prodCoupling N A v e.1) else s.maxV } := by
      simp only [symCrit, hr]
      by_cases ho : A.Has e.1 v
      · rw [opposite_of_has H.wf ho, Res.ok_bind]
        dsimp only
        by_cases hc : (N.counts (N.val e.2) || N.counts (N.val (A.entry e.1 v))) = true
        · have hb : BothWays N A v e.1 := by
            refine ⟨hnb, ho, ?_⟩
            rw [← heq, ← counts_iff, ← counts_iff]
            simpa using hc
          rw [if_pos hc, diagNorm_ok H.wf (H.has _ hjn), Res.ok_bind, if_pos (by simpa using hb), hd]
          congr 3
          unfold prodCoupling
          rw [← heq, div_mul_eq_mul_div, div_div]
        · have hb : ¬ BothWays N A v e.1 := by
            rintro ⟨_, _, h⟩
            rw [← heq, ← counts_iff, ← counts_iff] at h
            exact hc (by simpa using h)
          rw [if_neg hc, if_neg (by simpa using hb), ← hr]
      · rw [opposite_of_not H.wf hjn ho, Res.ok_bind]
        have hb : ¬ BothWays N A v e.1 := fun h => ho h.2.1
        rw [if_neg (by simpa using hb), ← hr]
    rw [List.foldlM_cons, hstep, Res.ok_bind]
    refine (ih _ (by exact hd) (by exact hr) (fun e he => hl e (by simp [he]))).trans ?_
    simp only [symMax, List.foldl_cons]

open Classical in
/-- The flags of the second pass. -/
noncomputable def symFlags (N : NormF B R) (p : DepPar R) (A : SpMat B) (v : Nat) (M : R) (P : Props) (e : Nat × B) : Props :=
  if BothWays N A v e.1 ∧ p.alpha * M < prodCoupling N A v e.1 then (P.setBoth v e.1).setBoth e.1 v else P

theorem sym_second {N : NormF B R} (p : DepPar R) {A : SpMat B} (H : StoredDiag A) {v : Nat} (hv : v < A.n) (M : R) :
    ∀ (l : List (Nat × B)) (s : CritSt R) (P : Props), s.diag = N.val (A.entry v v) → s.row = v → s.maxV = M →
      (∀ e ∈ l, e ∈ offDiag v (A.row v)) →
      l.foldlM (fun s e => (symCrit N p).examineEdge A (v, e.1) e s) (s, P) = .ok (s, l.foldl (symFlags N p A v M) P) := by
  intro l
  induction l with
  | nil => intro s P _ _ _ _; rfl
  | cons e r ih =>
    intro s P hd hr hM hl
    have he := hl e (by simp)
    obtain ⟨hnb, heq⟩ := (mem_offDiag_iff H.wf hv e).mp he
    have hjn := H.lt hnb.1
    have hstep : (symCrit N p).examineEdge A (v, e.1) e (s, P) = .ok (s, symFlags N p A v M P e) := by
      simp only [symCrit, hr, symFlags]
      by_cases ho : A.Has e.1 v
      · rw [opposite_of_has H.wf ho, Res.ok_bind]
        dsimp only
        by_cases hc : (N.counts (N.val e.2) || N.counts (N.val (A.entry e.1 v))) = true
        · have hb : BothWays N A v e.1 := by
            refine ⟨hnb, ho, ?_⟩
            rw [← heq, ← counts_iff, ← counts_iff]
            simpa using hc
          rw [if_pos hc, diagNorm_ok H.wf (H.has _ hjn), Res.ok_bind, hd, hM]
          have hval : N.val (A.entry e.1 v) / N.val (A.entry e.1 e.1) * N.val e.2 / N.val (A.entry v v) = prodCoupling N A v e.1 := by
            unfold prodCoupling
            rw [← heq, div_mul_eq_mul_div, div_div, mul_comm (N.val (A.entry e.1 v)), mul_comm (N.val (A.entry e.1 e.1))]
          rw [hval]
          by_cases hx : p.alpha * M < prodCoupling N A v e.1
          · rw [if_pos hx, if_pos ⟨hb, hx⟩]
            unfold setOpposite
            rw [if_neg (by rw [findEdge_none hjn]; exact fun h => h ho), Res.ok_bind]
          · rw [if_neg hx, if_neg (fun h => hx h.2)]
        · have hb : ¬ BothWays N A v e.1 := by
            rintro ⟨_, _, h⟩
            rw [← heq, ← counts_iff, ← counts_iff] at h
            exact hc (by simpa using h)
          rw [if_neg hc, if_neg (fun h => hb h.1)]
      · rw [opposite_of_not H.wf hjn ho, Res.ok_bind, if_neg (fun h => ho h.1.2.1)]
    rw [List.foldlM_cons, hstep, Res.ok_bind, ih s _ hd hr hM (fun e he => hl e (by simp [he])), List.foldl_cons]

theorem symMax_isMax {N : NormF B R} (lo : R) {A : SpMat B} (hA : A.WF) {v : Nat} (hv : v < A.n) :
    IsMaxFrom lo (prodSet N A v) (symMax N lo A v (offDiag v (A.row v))) := by
  classical
  have h := foldl_max_isMax lo (fun e : Nat × B => decide (BothWays N A v e.1)) (fun e => prodCoupling N A v e.1) (offDiag v (A.row v))
  have : prodSet N A v = {x | ∃ e ∈ offDiag v (A.row v), decide (BothWays N A v e.1) = true ∧ x = prodCoupling N A v e.1} := by
    ext x
    constructor
    · rintro ⟨j, hj, rfl⟩
      exact ⟨(j, A.entry v j), (mem_offDiag_iff hA hv _).mpr ⟨hj.1, rfl⟩, by simpa using hj, rfl⟩
    · rintro ⟨e, he, hc, rfl⟩
      exact ⟨e.1, by simpa using hc, rfl⟩
  rw [this]
  unfold symMax
  convert h

theorem sym_vertex {N : NormF B R} (p : DepPar R) (frob : B → R) (hfrob : ∀ b, 0 ≤ frob b) {A : SpMat B} (H : StoredDiag A)
    (first : Bool) {v : Nat} (hv : v < A.n) (P : Props) :
    ∃ P', depVertex (symCrit N p) frob A first v P = .ok P' ∧
      Adds P P' (fun u => u = v ∧ symMax N p.lo A v (offDiag v (A.row v)) < p.beta)
        (fun u => u = v ∧ first = true ∧ NoOff frob A v)
        (fun a b => ¬ symMax N p.lo A v (offDiag v (A.row v)) < p.beta ∧ ∃ j, BothWays N A v j ∧
          p.alpha * symMax N p.lo A v (offDiag v (A.row v)) < prodCoupling N A v j ∧ (a = v ∧ b = j ∨ a = j ∧ b = v))
        (fun a b => ¬ symMax N p.lo A v (offDiag v (A.row v)) < p.beta ∧ ∃ j, BothWays N A v j ∧
          p.alpha * symMax N p.lo A v (offDiag v (A.row v)) < prodCoupling N A v j ∧ (a = v ∧ b = j ∨ a = j ∧ b = v)) := by
  have hA := H.wf
  have h0 : (symCrit N p).initRow A v = .ok ⟨v, p.lo, N.val (A.entry v v), [], 0⟩ := by
    simp only [symCrit, diagNorm_ok hA (H.has v hv), Res.ok_bind]
  have e1 := sym_first p H hv (offDiag v (A.row v)) ⟨v, p.lo, N.val (A.entry v v), [], 0⟩ rfl rfl (fun _ h => h)
  dsimp only at e1
  set M := symMax N p.lo A v (offDiag v (A.row v)) with hMdef
  have h2 : (symCrit N p).isIsolated ⟨v, M, N.val (A.entry v v), [], 0⟩ =
      .ok (decide (M < p.beta), ⟨v, M, N.val (A.entry v v), [], 0⟩) := rfl
  obtain ⟨P', e, hP⟩ := depVertex_of (symCrit N p) frob A first v (hA v hv).1 _ _ _ _ (symFlags N p A v M) h0 e1 h2
    (fun _ P => ⟨_, sym_second p H hv M _ _ P rfl rfl rfl (fun _ h => h)⟩)
    (fun e a b => (BothWays N A v e.1 ∧ p.alpha * M < prodCoupling N A v e.1) ∧ (a = v ∧ b = e.1 ∨ a = e.1 ∧ b = v))
    (fun e a b => (BothWays N A v e.1 ∧ p.alpha * M < prodCoupling N A v e.1) ∧ (a = v ∧ b = e.1 ∨ a = e.1 ∧ b = v))
    (by
      intro e _ P
      unfold symFlags
      split
      · rename_i hc
        refine ((adds_setBoth P v e.1).trans (adds_setBoth _ e.1 v)).congr ?_ ?_ ?_ ?_ <;> simp [hc]
      · rename_i hc
        refine (Adds.refl P).congr ?_ ?_ ?_ ?_
        · simp
        · simp
        · intro a b; rw [false_iff]; exact fun h => hc h.1
        · intro a b; rw [false_iff]; exact fun h => hc h.1)
    P
  have key : ∀ a b, (decide (M < p.beta) = false ∧ ∃ e ∈ offDiag v (A.row v), (BothWays N A v e.1 ∧ p.alpha * M < prodCoupling N A v e.1) ∧
      (a = v ∧ b = e.1 ∨ a = e.1 ∧ b = v)) ↔ (¬ M < p.beta ∧ ∃ j, BothWays N A v j ∧
          p.alpha * M < prodCoupling N A v j ∧ (a = v ∧ b = j ∨ a = j ∧ b = v)) := by
    intro a b
    constructor
    · rintro ⟨h1, e, he, h2, h3⟩
      exact ⟨by simpa using h1, e.1, h2.1, h2.2, h3⟩
    · rintro ⟨h1, j, h2, h3, h4⟩
      exact ⟨by simpa using h1, (j, A.entry v j), (mem_offDiag_iff hA hv _).mpr ⟨h2.1, rfl⟩, ⟨h2, h3⟩, h4⟩
  refine ⟨P', e, hP.congr (by simp) ?_ key key⟩
  intro u
  rw [noOff_iff hfrob hA hv]

/-! ## `Dependency` -/

/-- The maximum of the first pass. -/
def unsymMax (N : NormF B R) (lo : R) (l : List (Nat × B)) : R := l.foldl (fun m e => max m (-(N.val e.2))) lo

theorem unsym_first (N : NormF B R) (p : DepPar R) (A : SpMat B) : ∀ (l : List (Nat × B)) (s : CritSt R),
    l.foldlM (fun s e => (unsymCrit N p).examine A e s) s = .ok { s with maxV := unsymMax N s.maxV l } := by
  intro l
  induction l with
  | nil => intro s; rfl
  | cons e r ih =>
    intro s
    rw [List.foldlM_cons]
    have : (unsymCrit N p).examine A e s = .ok { s with maxV := max s.maxV (-(N.val e.2)) } := rfl
    rw [this, Res.ok_bind, ih]
    rfl

/-- The flags of the second pass. -/
def unsymFlags (N : NormF B R) (p : DepPar R) (A : SpMat B) (v : Nat) (M : R) (P : Props) (e : Nat × B) : Props :=
  if -(N.val e.2) ≥ M * p.alpha then
    (if findEdge A e.1 v = none then P.setDep v e.1 else (P.setDep v e.1).setInfl e.1 v) else P

theorem unsym_second (N : NormF B R) (p : DepPar R) (A : SpMat B) (v : Nat) (M : R) :
    ∀ (l : List (Nat × B)) (s : CritSt R) (P : Props), s.maxV = M →
      l.foldlM (fun s e => (unsymCrit N p).examineEdge A (v, e.1) e s) (s, P) = .ok (s, l.foldl (unsymFlags N p A v M) P) := by
  intro l
  induction l with
  | nil => intro s P _; rfl
  | cons e r ih =>
    intro s P hM
    have : (unsymCrit N p).examineEdge A (v, e.1) e (s, P) = .ok (s, unsymFlags N p A v M P e) := by
      simp only [unsymCrit, unsymFlags, hM]
    rw [List.foldlM_cons, this, Res.ok_bind, ih s _ hM, List.foldl_cons]

theorem unsymMax_isMax {N : NormF B R} (lo : R) {A : SpMat B} (hA : A.WF) {v : Nat} (hv : v < A.n) :
    IsMaxFrom lo (negSet N A v) (unsymMax N lo (offDiag v (A.row v))) := by
  have h := foldl_max_isMax lo (fun _ : Nat × B => true) (fun e => -(N.val e.2)) (offDiag v (A.row v))
  have : negSet N A v = {x | ∃ e ∈ offDiag v (A.row v), true = true ∧ x = -(N.val e.2)} := by
    ext x
    constructor
    · rintro ⟨j, hj, rfl⟩
      exact ⟨(j, A.entry v j), (mem_offDiag_iff hA hv _).mpr ⟨hj, rfl⟩, rfl, rfl⟩
    · rintro ⟨e, he, hc, rfl⟩
      obtain ⟨h1, h2⟩ := (mem_offDiag_iff hA hv e).mp he
      exact ⟨e.1, h1, by rw [h2]⟩
  rw [this]
  exact h

theorem unsym_vertex {N : NormF B R} (p : DepPar R) (frob : B → R) (hfrob : ∀ b, 0 ≤ frob b) {A : SpMat B} (H : StoredDiag A)
    (first : Bool) {v : Nat} (hv : v < A.n) (P : Props) :
    ∃ P', depVertex (unsymCrit N p) frob A first v P = .ok P' ∧
      Adds P P' (fun u => u = v ∧ unsymMax N p.lo (offDiag v (A.row v)) < p.beta * N.val (A.entry v v))
        (fun u => u = v ∧ first = true ∧ NoOff frob A v)
        (fun a b => a = v ∧ ¬ unsymMax N p.lo (offDiag v (A.row v)) < p.beta * N.val (A.entry v v) ∧ Neighbour A v b ∧
          unsymMax N p.lo (offDiag v (A.row v)) * p.alpha ≤ -(N.val (A.entry v b)))
        (fun a b => b = v ∧ A.Has a v ∧ ¬ unsymMax N p.lo (offDiag v (A.row v)) < p.beta * N.val (A.entry v v) ∧ Neighbour A v a ∧
          unsymMax N p.lo (offDiag v (A.row v)) * p.alpha ≤ -(N.val (A.entry v a))) := by
  have hA := H.wf
  have hsq := H.sq
  have h0 : (unsymCrit N p).initRow A v = .ok ⟨v, p.lo, N.val (A.entry v v), [], 0⟩ := by
    simp only [unsymCrit, diagNorm_ok hA (H.has v hv), Res.ok_bind]
  have e1 := unsym_first N p A (offDiag v (A.row v)) ⟨v, p.lo, N.val (A.entry v v), [], 0⟩
  dsimp only at e1
  set M := unsymMax N p.lo (offDiag v (A.row v)) with hMdef
  have h2 : (unsymCrit N p).isIsolated ⟨v, M, N.val (A.entry v v), [], 0⟩ =
      .ok (decide (M < p.beta * N.val (A.entry v v)), ⟨v, M, N.val (A.entry v v), [], 0⟩) := rfl
  have hlt : ∀ {j}, Neighbour A v j → j < A.n := by
    rintro j ⟨⟨_, b, hb⟩, _⟩
    rw [hsq]; exact (hA v hv).2 _ hb
  obtain ⟨P', e, hP⟩ := depVertex_of (unsymCrit N p) frob A first v (hA v hv).1 _ _ _ _ (unsymFlags N p A v M) h0 e1 h2
    (fun _ P => ⟨_, unsym_second N p A v M _ _ P rfl⟩)
    (fun e a b => M * p.alpha ≤ -(N.val e.2) ∧ a = v ∧ b = e.1)
    (fun e a b => M * p.alpha ≤ -(N.val e.2) ∧ A.Has e.1 v ∧ a = e.1 ∧ b = v)
    (by
      intro e he P
      obtain ⟨h1, h2⟩ := (mem_offDiag_iff hA hv e).mp he
      have hfe := findEdge_none (A := A) (t := v) (hlt h1)
      unfold unsymFlags
      by_cases hc : -(N.val e.2) ≥ M * p.alpha
      · rw [if_pos hc]
        by_cases ho : A.Has e.1 v
        · rw [if_neg (by rw [hfe]; exact fun h => h ho)]
          refine ((adds_setDep P v e.1).trans (adds_setInfl _ e.1 v)).congr ?_ ?_ ?_ ?_
          · simp
          · simp
          · intro a b; simp [hc.le]
          · intro a b; simp [hc.le, ho]
        · rw [if_pos (hfe.mpr ho)]
          refine (adds_setDep P v e.1).congr ?_ ?_ ?_ ?_
          · simp
          · simp
          · intro a b; simp [hc.le]
          · intro a b; simp [ho]
      · rw [if_neg hc]
        refine (Adds.refl P).congr ?_ ?_ ?_ ?_
        · simp
        · simp
        · intro a b; rw [false_iff]; exact fun h => hc h.1
        · intro a b; rw [false_iff]; exact fun h => hc h.1)
    P
  refine ⟨P', e, hP.congr (by simp) ?_ ?_ ?_⟩
  · intro u
    rw [noOff_iff hfrob hA hv]
  · intro a b
    constructor
    · rintro ⟨h1, e', he, h2, rfl, rfl⟩
      obtain ⟨h3, h4⟩ := (mem_offDiag_iff hA hv e').mp he
      exact ⟨rfl, by simpa using h1, h3, by rw [← h4]; exact h2⟩
    · rintro ⟨rfl, h1, h2, h3⟩
      exact ⟨by simpa using h1, (b, A.entry a b), (mem_offDiag_iff hA hv _).mpr ⟨h2, rfl⟩, h3, rfl, rfl⟩
  · intro a b
    constructor
    · rintro ⟨h1, e', he, h2, ho, rfl, rfl⟩
      obtain ⟨h3, h4⟩ := (mem_offDiag_iff hA hv e').mp he
      exact ⟨rfl, ho, by simpa using h1, h3, by rw [← h4]; exact h2⟩
    · rintro ⟨rfl, ho, h1, h2, h3⟩
      exact ⟨by simpa using h1, (a, A.entry b a), (mem_offDiag_iff hA hv _).mpr ⟨h2, rfl⟩, h3, ho, rfl, rfl⟩

end Amg
end Istl
