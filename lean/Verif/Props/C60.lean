import Verif.Lemmas.Dependency2
import Verif.Props.C59
import Mathlib.Algebra.Order.Field.Basic

/-!
# C60: strong connections

`buildDependency` with each of the three criteria, for every matrix with stored, nonzero diagonal blocks, every norm functor and all
parameters: which vertices become isolated or excluded, and which edges strong.
-/

namespace Istl
namespace Amg

variable {B R : Type}

section
variable [Zero B] [Field R] [LinearOrder R]

/-- **C60.** `SymmetricMatrixDependency`: vertex `i` is isolated iff the largest coupling of its row is below `beta`; otherwise it depends
on (and influences) exactly the neighbours whose coupling exceeds `alpha` times the largest. A vertex without off-diagonal couplings is
excluded on the first level, and only there. -/
theorem C60_matrix (N : NormF B R) (p : DepPar R) (frob : B → R) (hfrob : ∀ b, 0 ≤ frob b) (A : SpMat B) (H : Diagonals N A) (first : Bool) :
    ∃ (P : Props) (M : Nat → R), buildDependency (symMatrixCrit N p) frob A first = .ok P ∧
      (∀ i < A.n, IsMaxFrom p.lo (sqSet N A i) (M i)) ∧
      (∀ i, P.isolated i = true ↔ i < A.n ∧ M i < p.beta) ∧
      (∀ i, P.excluded i = true ↔ i < A.n ∧ first = true ∧ NoOff frob A i) ∧
      (∀ i j, P.dep i j = true ↔ i < A.n ∧ p.beta ≤ M i ∧ Neighbour A i j ∧ p.alpha * M i < sqCoupling N A i j) ∧
      (∀ i j, P.infl i j = P.dep i j) := by
  obtain ⟨P, e, hP⟩ := depLoop_adds (symMatrixCrit N p) frob A first _ _ _ _ (List.range A.n)
    (fun v hv P => smd_vertex p frob hfrob H.toStoredDiag first (List.mem_range.mp hv) (H.ne v (List.mem_range.mp hv)) P) noFlags
  have hd : ∀ i j, P.dep i j = true ↔ i < A.n ∧ p.beta ≤ smdMax N p.lo A i (offDiag i (A.row i)) ∧ Neighbour A i j ∧
      p.alpha * smdMax N p.lo A i (offDiag i (A.row i)) < sqCoupling N A i j := by
    intro i j
    rw [hP.dep]
    simp only [noFlags, Bool.false_eq_true, false_or, List.mem_range, not_lt]
    constructor
    · rintro ⟨v, hv, rfl, h⟩; exact ⟨hv, h⟩
    · rintro ⟨hv, h⟩; exact ⟨i, hv, rfl, h⟩
  refine ⟨P, fun i => smdMax N p.lo A i (offDiag i (A.row i)), e, fun i hi => smdMax_isMax p.lo H.wf hi, ?_, ?_, hd, ?_⟩
  · intro i
    rw [hP.iso]
    simp only [noFlags, Bool.false_eq_true, false_or, List.mem_range]
    constructor
    · rintro ⟨v, hv, rfl, h⟩; exact ⟨hv, h⟩
    · rintro ⟨hv, h⟩; exact ⟨i, hv, rfl, h⟩
  · intro i
    rw [hP.exc]
    simp only [noFlags, Bool.false_eq_true, false_or, List.mem_range]
    constructor
    · rintro ⟨v, hv, rfl, h⟩; exact ⟨hv, h⟩
    · rintro ⟨hv, h⟩; exact ⟨i, hv, rfl, h⟩
  · intro i j
    rw [Bool.eq_iff_iff, hP.infl, hP.dep]
    simp [noFlags]

/-- **C60.** `SymmetricDependency`: isolated as before, with the couplings `|a_ij| |a_ji| / (|a_ii| |a_jj|)` of entries stored in both
triangles; an edge is strong, in both directions, if it exceeds the threshold of one of its ends and that end is not isolated. -/
theorem C60_symmetric (N : NormF B R) (p : DepPar R) (frob : B → R) (hfrob : ∀ b, 0 ≤ frob b) (A : SpMat B) (H : StoredDiag A) (first : Bool) :
    ∃ (P : Props) (M : Nat → R), buildDependency (symCrit N p) frob A first = .ok P ∧
      (∀ i < A.n, IsMaxFrom p.lo (prodSet N A i) (M i)) ∧
      (∀ i, P.isolated i = true ↔ i < A.n ∧ M i < p.beta) ∧
      (∀ i, P.excluded i = true ↔ i < A.n ∧ first = true ∧ NoOff frob A i) ∧
      (∀ i j, P.dep i j = true ↔ i < A.n ∧ j < A.n ∧ BothWays N A i j ∧
        ((p.beta ≤ M i ∧ p.alpha * M i < prodCoupling N A i j) ∨ (p.beta ≤ M j ∧ p.alpha * M j < prodCoupling N A i j))) ∧
      (∀ i j, P.infl i j = P.dep i j) := by
  obtain ⟨P, e, hP⟩ := depLoop_adds (symCrit N p) frob A first _ _ _ _ (List.range A.n)
    (fun v hv P => sym_vertex (N := N) p frob hfrob H first (List.mem_range.mp hv) P) noFlags
  have hcomm : ∀ i j, prodCoupling N A i j = prodCoupling N A j i := by
    intro i j; unfold prodCoupling; rw [mul_comm (N.val (A.entry i j)), mul_comm (N.val (A.entry i i))]
  have hsw : ∀ {i j}, BothWays N A i j → BothWays N A j i := by
    rintro i j ⟨⟨h1, h2⟩, h3, h4⟩
    exact ⟨⟨h3, fun h => h2 h.symm⟩, h1, h4.symm⟩
  refine ⟨P, fun i => symMax N p.lo A i (offDiag i (A.row i)), e, fun i hi => symMax_isMax p.lo H.wf hi, ?_, ?_, ?_, ?_⟩
  · intro i
    rw [hP.iso]
    simp only [noFlags, Bool.false_eq_true, false_or, List.mem_range]
    constructor
    · rintro ⟨v, hv, rfl, h⟩; exact ⟨hv, h⟩
    · rintro ⟨hv, h⟩; exact ⟨i, hv, rfl, h⟩
  · intro i
    rw [hP.exc]
    simp only [noFlags, Bool.false_eq_true, false_or, List.mem_range]
    constructor
    · rintro ⟨v, hv, rfl, h⟩; exact ⟨hv, h⟩
    · rintro ⟨hv, h⟩; exact ⟨i, hv, rfl, h⟩
  · intro i j
    rw [hP.dep]
    simp only [noFlags, Bool.false_eq_true, false_or, List.mem_range, not_lt]
    constructor
    · rintro ⟨v, hv, h1, k, h2, h3, ⟨rfl, rfl⟩ | ⟨rfl, rfl⟩⟩
      · exact ⟨hv, h2.2.1.1, h2, Or.inl ⟨h1, h3⟩⟩
      · exact ⟨h2.2.1.1, hv, hsw h2, Or.inr ⟨h1, by rw [hcomm]; exact h3⟩⟩
    · rintro ⟨hi, hj, hb, ⟨h1, h2⟩ | ⟨h1, h2⟩⟩
      · exact ⟨i, hi, h1, j, hb, h2, Or.inl ⟨rfl, rfl⟩⟩
      · exact ⟨j, hj, h1, i, hsw hb, by rw [hcomm]; exact h2, Or.inr ⟨rfl, rfl⟩⟩
  · intro i j
    rw [Bool.eq_iff_iff, hP.infl, hP.dep]
    simp [noFlags]

/-- **C60.** `Dependency`: vertex `i` is isolated iff the largest `-a_ij` is below `beta a_ii`; otherwise it depends on the neighbours with
`-a_ij` at least `alpha` times the largest; an edge influences iff the opposite edge exists and depends. -/
theorem C60_unsymmetric (N : NormF B R) (p : DepPar R) (frob : B → R) (hfrob : ∀ b, 0 ≤ frob b) (A : SpMat B) (H : StoredDiag A) (first : Bool) :
    ∃ (P : Props) (M : Nat → R), buildDependency (unsymCrit N p) frob A first = .ok P ∧
      (∀ i < A.n, IsMaxFrom p.lo (negSet N A i) (M i)) ∧
      (∀ i, P.isolated i = true ↔ i < A.n ∧ M i < p.beta * N.val (A.entry i i)) ∧
      (∀ i, P.excluded i = true ↔ i < A.n ∧ first = true ∧ NoOff frob A i) ∧
      (∀ i j, P.dep i j = true ↔ i < A.n ∧ p.beta * N.val (A.entry i i) ≤ M i ∧ Neighbour A i j ∧ M i * p.alpha ≤ -(N.val (A.entry i j))) ∧
      (∀ i j, P.infl i j = true ↔ A.Has i j ∧ P.dep j i = true) := by
  obtain ⟨P, e, hP⟩ := depLoop_adds (unsymCrit N p) frob A first _ _ _ _ (List.range A.n)
    (fun v hv P => unsym_vertex (N := N) p frob hfrob H first (List.mem_range.mp hv) P) noFlags
  have hd : ∀ i j, P.dep i j = true ↔ i < A.n ∧ p.beta * N.val (A.entry i i) ≤ unsymMax N p.lo (offDiag i (A.row i)) ∧ Neighbour A i j ∧
      unsymMax N p.lo (offDiag i (A.row i)) * p.alpha ≤ -(N.val (A.entry i j)) := by
    intro i j
    rw [hP.dep]
    simp only [noFlags, Bool.false_eq_true, false_or, List.mem_range, not_lt]
    constructor
    · rintro ⟨v, hv, rfl, h⟩; exact ⟨hv, h⟩
    · rintro ⟨hv, h⟩; exact ⟨i, hv, rfl, h⟩
  refine ⟨P, fun i => unsymMax N p.lo (offDiag i (A.row i)), e, fun i hi => unsymMax_isMax p.lo H.wf hi, ?_, ?_, hd, ?_⟩
  · intro i
    rw [hP.iso]
    simp only [noFlags, Bool.false_eq_true, false_or, List.mem_range]
    constructor
    · rintro ⟨v, hv, rfl, h⟩; exact ⟨hv, h⟩
    · rintro ⟨hv, h⟩; exact ⟨i, hv, rfl, h⟩
  · intro i
    rw [hP.exc]
    simp only [noFlags, Bool.false_eq_true, false_or, List.mem_range]
    constructor
    · rintro ⟨v, hv, rfl, h⟩; exact ⟨hv, h⟩
    · rintro ⟨hv, h⟩; exact ⟨i, hv, rfl, h⟩
  · intro i j
    rw [hd, hP.infl]
    simp only [noFlags, Bool.false_eq_true, false_or, List.mem_range, not_lt]
    constructor
    · rintro ⟨v, hv, rfl, h1, h2⟩; exact ⟨h1, hv, h2⟩
    · rintro ⟨h1, hv, h2⟩; exact ⟨j, hv, rfl, h1, h2⟩

theorem depLoop_append (C : Criterion B R) (frob : B → R) (A : SpMat B) (first : Bool) : ∀ (l r : List Nat) (P : Props),
    depLoop C frob A first (l ++ r) P = depLoop C frob A first l P >>= depLoop C frob A first r := by
  intro l r
  induction l with
  | nil => intro P; rfl
  | cons v vs ih =>
    intro P
    rw [List.cons_append, depLoop, depLoop]
    cases depVertex C frob A first v P with
    | ok Q => simp only [Res.ok_bind]; exact ih Q
    | throw e => rfl
    | ub => rfl

/-- **C60.** `SymmetricMatrixDependency` refuses a matrix with a diagonal block of norm zero. -/
theorem C60_zero_diagonal (N : NormF B R) (p : DepPar R) (frob : B → R) (hfrob : ∀ b, 0 ≤ frob b) (A : SpMat B) (H : StoredDiag A)
    (first : Bool) (h0 : ∃ i < A.n, N.val (A.entry i i) = 0) :
    buildDependency (symMatrixCrit N p) frob A first = .throw .istlError := by
  classical
  obtain ⟨hi, hz⟩ := Nat.find_spec h0
  set i := Nat.find h0
  have hmin : ∀ v < i, N.val (A.entry v v) ≠ 0 := fun v hv h => Nat.find_min h0 hv ⟨by omega, h⟩
  have hr : List.range A.n = List.range i ++ i :: ((List.range (A.n - i - 1)).map fun x => i + 1 + x) := by
    obtain ⟨k, hk⟩ : ∃ k, A.n = i + 1 + k := ⟨A.n - i - 1, by omega⟩
    rw [hk, List.range_add, List.range_succ]
    simp only [List.append_assoc, List.singleton_append]
    congr 4
    omega
  obtain ⟨P, e, _⟩ := depLoop_adds (symMatrixCrit N p) frob A first _ _ _ _ (List.range i)
    (fun v hv P => smd_vertex p frob hfrob H first (lt_trans (List.mem_range.mp hv) hi) (hmin v (List.mem_range.mp hv)) P) noFlags
  unfold buildDependency
  rw [hr, depLoop_append, e, Res.ok_bind, depLoop]
  have hv : depVertex (symMatrixCrit N p) frob A first i P = .throw .istlError := by
    have h0 : (symMatrixCrit N p).initRow A i = .ok ⟨i, p.lo, N.val (A.entry i i), List.replicate (A.row i).length 0, 0⟩ := by
      simp only [symMatrixCrit, diagNorm_ok H.wf (H.has i hi), Res.ok_bind]
    obtain ⟨s1, e1, hd, _⟩ := smd_first N p A i (offDiag i (A.row i)) ⟨i, p.lo, N.val (A.entry i i),
      List.replicate (A.row i).length 0, 0⟩ rfl (by
        intro e he
        have h1 := ((mem_offDiag_iff H.wf hi e).mp he).1.1
        exact diagNorm_ok H.wf (H.has _ (H.lt h1))) (by
        simp only [List.length_replicate, Nat.zero_add]
        exact List.length_filter_le _ _)
    unfold depVertex
    rw [h0, Res.ok_bind, firstPass_fold _ frob A i first _ _ _ _ e1, Res.ok_bind]
    have : (symMatrixCrit N p).isIsolated s1 = .throw .istlError := by
      simp only [symMatrixCrit]
      rw [if_pos (by rw [hd]; exact hz)]
    rw [this]
    rfl
  rw [hv]
  rfl

/-- Two results of `buildDependency` with the same flags are equal. -/
theorem props_ext {P P' : Props} (h1 : ∀ i, P.isolated i = true ↔ P'.isolated i = true) (h2 : ∀ i, P.excluded i = true ↔ P'.excluded i = true)
    (h3 : ∀ i j, P.dep i j = true ↔ P'.dep i j = true) (h4 : ∀ i j, P.infl i j = true ↔ P'.infl i j = true) : P = P' := by
  obtain ⟨a, b, c, d⟩ := P
  obtain ⟨a', b', c', d'⟩ := P'
  simp only at h1 h2 h3 h4
  have e1 : a = a' := funext fun i => Bool.eq_iff_iff.mpr (h1 i)
  have e2 : b = b' := funext fun i => Bool.eq_iff_iff.mpr (h2 i)
  have e3 : c = c' := funext fun i => funext fun j => Bool.eq_iff_iff.mpr (h3 i j)
  have e4 : d = d' := funext fun i => funext fun j => Bool.eq_iff_iff.mpr (h4 i j)
  rw [e1, e2, e3, e4]

end

/-! ## Consequences -/

section
variable [Zero B] [Field R] [LinearOrder R] [IsStrictOrderedRing R]

/-- **C60.** With `0 < beta` and `alpha < 1` no vertex is left without a strong neighbour unless it is isolated: all three criteria
(for `Dependency`: with positive diagonals). -/
theorem C60_strong_neighbour (N : NormF B R) (p : DepPar R) (hlo : p.lo < 0) (hb : 0 < p.beta) (ha : p.alpha < 1) (frob : B → R)
    (hfrob : ∀ b, 0 ≤ frob b) (A : SpMat B) (H : Diagonals N A) (first : Bool) (i : Nat) (hi : i < A.n) :
    (∃ P, buildDependency (symMatrixCrit N p) frob A first = .ok P ∧ (P.isolated i = false ↔ ∃ j, P.dep i j = true)) ∧
    (∃ P, buildDependency (symCrit N p) frob A first = .ok P ∧ (P.isolated i = false → ∃ j, P.dep i j = true)) ∧
    ((∀ i < A.n, 0 < N.val (A.entry i i)) →
      ∃ P, buildDependency (unsymCrit N p) frob A first = .ok P ∧ (P.isolated i = false ↔ ∃ j, P.dep i j = true)) := by
  have hne : ∀ {b : Bool}, b = false ↔ ¬ b = true := by intro b; simp
  refine ⟨?_, ?_, ?_⟩
  · obtain ⟨P, M, e, hM, h1, _, h3, _⟩ := C60_matrix N p frob hfrob A H first
    refine ⟨P, e, ?_⟩
    rw [hne, h1]
    constructor
    · intro h
      have hm : p.beta ≤ M i := not_lt.mp fun h' => h ⟨hi, h'⟩
      rcases (hM i hi).2.2 with hx | ⟨j, hj, _, hx⟩
      · rw [hx] at hm; exact absurd (lt_of_lt_of_le hb hm) (not_lt.mpr hlo.le)
      · refine ⟨j, (h3 i j).mpr ⟨hi, hm, hj, ?_⟩⟩
        rw [← hx]
        have : 0 < M i := lt_of_lt_of_le hb hm
        nlinarith
    · rintro ⟨j, hj⟩ ⟨_, h⟩
      exact absurd ((h3 i j).mp hj).2.1 (not_le.mpr h)
  · obtain ⟨P, M, e, hM, h1, _, h3, _⟩ := C60_symmetric N p frob hfrob A H.toStoredDiag first
    refine ⟨P, e, ?_⟩
    rw [hne, h1]
    intro h
    have hm : p.beta ≤ M i := not_lt.mp fun h' => h ⟨hi, h'⟩
    rcases (hM i hi).2.2 with hx | ⟨j, hj, hx⟩
    · rw [hx] at hm; exact absurd (lt_of_lt_of_le hb hm) (not_lt.mpr hlo.le)
    · refine ⟨j, (h3 i j).mpr ⟨hi, hj.2.1.1, hj, Or.inl ⟨hm, ?_⟩⟩⟩
      rw [← hx]
      have : 0 < M i := lt_of_lt_of_le hb hm
      nlinarith
  · intro hpos
    obtain ⟨P, M, e, hM, h1, _, h3, _⟩ := C60_unsymmetric N p frob hfrob A H.toStoredDiag first
    refine ⟨P, e, ?_⟩
    rw [hne, h1]
    have hd := mul_pos hb (hpos i hi)
    constructor
    · intro h
      have hm : p.beta * N.val (A.entry i i) ≤ M i := not_lt.mp fun h' => h ⟨hi, h'⟩
      rcases (hM i hi).2.2 with hx | ⟨j, hj, hx⟩
      · rw [hx] at hm; exact absurd (lt_of_lt_of_le hd hm) (not_lt.mpr hlo.le)
      · refine ⟨j, (h3 i j).mpr ⟨hi, hm, hj, ?_⟩⟩
        rw [← hx]
        have : 0 < M i := lt_of_lt_of_le hd hm
        nlinarith
    · rintro ⟨j, hj⟩ ⟨_, h⟩
      exact absurd ((h3 i j).mp hj).2.1 (not_le.mpr h)

/-- **C60.** On a matrix whose norms are symmetric, `SymmetricDependency` makes strong exactly the edges that
`SymmetricMatrixDependency` makes strong in at least one direction; the isolated vertices are the same. -/
theorem C60_agree (N : NormF B R) (p : DepPar R) (hb : 0 < p.beta) (ha : 0 ≤ p.alpha) (frob : B → R)
    (hfrob : ∀ b, 0 ≤ frob b) (A : SpMat B) (H : Diagonals N A) (hst : ∀ i j, A.Has i j → A.Has j i)
    (hsym : ∀ i < A.n, ∀ j < A.n, N.val (A.entry i j) = N.val (A.entry j i)) (first : Bool) :
    ∃ P Q, buildDependency (symCrit N p) frob A first = .ok P ∧ buildDependency (symMatrixCrit N p) frob A first = .ok Q ∧
      P.isolated = Q.isolated ∧ P.excluded = Q.excluded ∧ ∀ i j, P.dep i j = (Q.dep i j || Q.dep j i) := by
  obtain ⟨P, M, e, hM, h1, h2, h3, _⟩ := C60_symmetric N p frob hfrob A H.toStoredDiag first
  obtain ⟨Q, M', e', hM', h1', h2', h3', _⟩ := C60_matrix N p frob hfrob A H first
  have hb1 : ∀ {i j}, Neighbour A i j → (BothWays N A i j ↔ N.Counts (A.entry i j)) := by
    intro i j hn
    have hs := hsym i hn.1.1 j (hst _ _ hn.1).1
    unfold BothWays NormF.Counts
    rw [← hs]
    have := hst _ _ hn.1
    simp [hn, this]
  have hc1 : ∀ {i j}, Neighbour A i j → N.Counts (A.entry i j) → sqCoupling N A i j = prodCoupling N A i j := by
    intro i j hn hc
    have hs := hsym i hn.1.1 j (hst _ _ hn.1).1
    unfold sqCoupling prodCoupling
    rw [if_pos hc, ← hs]
  have hset : ∀ i, sqSet N A i = prodSet N A i := by
    intro i
    ext x
    constructor
    · rintro ⟨j, hj, hc, rfl⟩; exact ⟨j, (hb1 hj).mpr hc, hc1 hj hc⟩
    · rintro ⟨j, hj, rfl⟩; exact ⟨j, hj.1, (hb1 hj.1).mp hj, (hc1 hj.1 ((hb1 hj.1).mp hj)).symm⟩
  have hMM : ∀ i < A.n, M i = M' i := by
    intro i hi
    have h := hM' i hi
    rw [hset] at h
    exact (hM i hi).unique h
  have hcomm : ∀ i j, prodCoupling N A i j = prodCoupling N A j i := by
    intro i j; unfold prodCoupling; rw [mul_comm (N.val (A.entry i j)), mul_comm (N.val (A.entry i i))]
  refine ⟨P, Q, e, e', ?_, ?_, ?_⟩
  · funext i
    rw [Bool.eq_iff_iff, h1, h1']
    constructor
    · rintro ⟨hi, h⟩; exact ⟨hi, by rw [← hMM i hi]; exact h⟩
    · rintro ⟨hi, h⟩; exact ⟨hi, by rw [hMM i hi]; exact h⟩
  · funext i
    rw [Bool.eq_iff_iff, h2, h2']
  · intro i j
    have side : ∀ i j, Neighbour A i j → i < A.n → p.beta ≤ M i → p.alpha * M i < sqCoupling N A i j → N.Counts (A.entry i j) := by
      intro i j hn hi hbm hc
      by_contra hcn
      unfold sqCoupling at hc
      rw [if_neg hcn] at hc
      have : 0 ≤ p.alpha * M i := mul_nonneg ha (le_trans hb.le hbm)
      exact absurd hc (not_lt.mpr this)
    rw [Bool.eq_iff_iff, Bool.or_eq_true, h3, h3', h3']
    constructor
    · rintro ⟨hi, hj, hbw, ⟨h5, h6⟩ | ⟨h5, h6⟩⟩
      · left
        rw [hMM i hi] at h5 h6
        exact ⟨hi, h5, hbw.1, by rw [hc1 hbw.1 ((hb1 hbw.1).mp hbw)]; exact h6⟩
      · right
        rw [hMM j hj] at h5 h6
        have hn : Neighbour A j i := ⟨hbw.2.1, fun h => hbw.1.2 h.symm⟩
        have hc : N.Counts (A.entry j i) := by
          have := (hb1 hbw.1).mp hbw
          unfold NormF.Counts at this ⊢
          rw [hsym j hj i hi]; exact this
        exact ⟨hj, h5, hn, by rw [hc1 hn hc, hcomm]; exact h6⟩
    · rintro (⟨hi, h5, hn, h6⟩ | ⟨hj, h5, hn, h6⟩)
      · rw [← hMM i hi] at h5 h6
        have hc := side i j hn hi h5 h6
        exact ⟨hi, (hst _ _ hn.1).1, (hb1 hn).mpr hc, Or.inl ⟨h5, by rw [← hc1 hn hc]; exact h6⟩⟩
      · rw [← hMM j hj] at h5 h6
        have hc := side j i hn hj h5 h6
        have hbw := (hb1 hn).mpr hc
        exact ⟨(hst _ _ hn.1).1, hj, ⟨⟨hbw.2.1, fun h => hn.2 h.symm⟩, hn.1, hbw.2.2.symm⟩, Or.inr ⟨h5, by rw [hcomm, ← hc1 hn hc]; exact h6⟩⟩

/-- **C60.** With a norm that keeps the sign and no negative off-diagonal entry (in particular for the negative of an M-matrix) both
symmetric criteria isolate every vertex and make no edge strong. -/
theorem C60_positive_couplings (N : NormF B R) (hN : N.keepsSign = true) (p : DepPar R) (hlo : p.lo < p.beta) (frob : B → R)
    (hfrob : ∀ b, 0 ≤ frob b) (A : SpMat B) (H : Diagonals N A) (hpos : ∀ i j, Neighbour A i j → 0 ≤ N.val (A.entry i j)) (first : Bool) :
    (∃ P, buildDependency (symMatrixCrit N p) frob A first = .ok P ∧ (∀ i < A.n, P.isolated i = true) ∧ ∀ i j, P.dep i j = false) ∧
    (∃ P, buildDependency (symCrit N p) frob A first = .ok P ∧ (∀ i < A.n, P.isolated i = true) ∧ ∀ i j, P.dep i j = false) := by
  have hcn : ∀ i j, Neighbour A i j → ¬ N.Counts (A.entry i j) := by
    intro i j hn hc
    rcases hc with h | h
    · rw [hN] at h; exact absurd h (by decide)
    · exact absurd h (not_lt.mpr (hpos i j hn))
  constructor
  · obtain ⟨P, M, e, hM, h1, _, h3, _⟩ := C60_matrix N p frob hfrob A H first
    have hml : ∀ i < A.n, M i < p.beta := by
      intro i hi
      rcases (hM i hi).2.2 with hx | ⟨j, hj, hc, _⟩
      · rw [hx]; exact hlo
      · exact absurd hc (hcn i j hj)
    refine ⟨P, e, fun i hi => (h1 i).mpr ⟨hi, hml i hi⟩, ?_⟩
    intro i j
    rw [← Bool.not_eq_true, h3]
    rintro ⟨hi, h, _⟩
    exact absurd (hml i hi) (not_lt.mpr h)
  · obtain ⟨P, M, e, hM, h1, _, h3, _⟩ := C60_symmetric N p frob hfrob A H.toStoredDiag first
    have hml : ∀ i < A.n, M i < p.beta := by
      intro i hi
      rcases (hM i hi).2.2 with hx | ⟨j, hj, _⟩
      · rw [hx]; exact hlo
      · rcases hj.2.2 with h | h
        · exact absurd h (hcn i j hj.1)
        · exact absurd h (hcn j i ⟨hj.2.1, fun h => hj.1.2 h.symm⟩)
    refine ⟨P, e, fun i hi => (h1 i).mpr ⟨hi, hml i hi⟩, ?_⟩
    intro i j
    rw [← Bool.not_eq_true, h3]
    rintro ⟨hi, hj, _, ⟨h, _⟩ | ⟨h, _⟩⟩
    · exact absurd (hml i hi) (not_lt.mpr h)
    · exact absurd (hml j hj) (not_lt.mpr h)

end

section
variable [AddCommGroup B] [Field R] [LinearOrder R] [IsStrictOrderedRing R] [Module R B]

theorem scaled_has (d e : Nat → R) (A : SpMat B) (i j : Nat) : (scaled d e A).Has i j ↔ A.Has i j := by
  unfold SpMat.Has Row.Has scaled
  simp only [List.mem_map, Prod.mk.injEq, Prod.exists]
  constructor
  · rintro ⟨hi, b, j', b', hm, rfl, _⟩; exact ⟨hi, b', hm⟩
  · rintro ⟨hi, b, hm⟩; exact ⟨hi, _, j, b, hm, rfl, rfl⟩

theorem scaled_wf {d e : Nat → R} {A : SpMat B} (hA : A.WF) : (scaled d e A).WF := by
  intro i hi
  obtain ⟨h1, h2⟩ := hA i hi
  constructor
  · unfold Row.Asc at h1 ⊢
    simp only [scaled, List.map_map, Function.comp_def]
    exact h1
  · intro x hx
    simp only [scaled, List.mem_map] at hx
    obtain ⟨y, hy, rfl⟩ := hx
    exact h2 y hy

theorem scaled_entry {d e : Nat → R} {A : SpMat B} (hA : A.WF) {i j : Nat} (h : A.Has i j) :
    (scaled d e A).entry i j = (d i * e j) • A.entry i j := by
  have hm := has_mem hA h
  have : (j, (d i * e j) • A.entry i j) ∈ (scaled d e A).row i := by
    simp only [scaled, List.mem_map]
    exact ⟨_, hm, rfl⟩
  exact entry_of_mem (scaled_wf hA i h.1).1 this

/-- **C60.** `SymmetricDependency` does not see positive scalings of the rows and columns: the flags of the scaled matrix are the same. -/
theorem C60_scaling (N : NormF B R) (hN : ∀ c : R, 0 < c → ∀ b, N.val (c • b) = c * N.val b) (p : DepPar R) (frob : B → R) (hfrob : ∀ b, 0 ≤ frob b)
    (hf0 : ∀ c : R, 0 < c → ∀ b, frob (c • b) = 0 ↔ frob b = 0) (A : SpMat B) (H : StoredDiag A) (d e : Nat → R) (hd : ∀ i, 0 < d i)
    (he : ∀ i, 0 < e i) (first : Bool) :
    buildDependency (symCrit N p) frob (scaled d e A) first = buildDependency (symCrit N p) frob A first := by
  have H' : StoredDiag (scaled d e A) := ⟨scaled_wf H.wf, H.sq, fun i hi => (scaled_has d e A i i).mpr (H.has i hi)⟩
  obtain ⟨P, M, e1, hM, h1, h2, h3, h4⟩ := C60_symmetric N p frob hfrob A H first
  obtain ⟨P', M', e1', hM', h1', h2', h3', h4'⟩ := C60_symmetric N p frob hfrob (scaled d e A) H' first
  have hen : ∀ {i j}, A.Has i j → N.val ((scaled d e A).entry i j) = d i * e j * N.val (A.entry i j) := by
    intro i j h
    rw [scaled_entry H.wf h, hN _ (mul_pos (hd i) (he j))]
  have hct : ∀ {i j}, A.Has i j → (N.Counts ((scaled d e A).entry i j) ↔ N.Counts (A.entry i j)) := by
    intro i j h
    unfold NormF.Counts
    rw [hen h]
    have := mul_pos (hd i) (he j)
    constructor
    · rintro (h | h)
      · exact Or.inl h
      · right; by_contra hc; exact absurd h (not_lt.mpr (mul_nonneg this.le (not_lt.mp hc)))
    · rintro (h | h)
      · exact Or.inl h
      · right; exact mul_neg_of_pos_of_neg this h
  have hnb : ∀ i j, Neighbour (scaled d e A) i j ↔ Neighbour A i j := by
    intro i j; unfold Neighbour; rw [scaled_has]
  have hbw : ∀ i j, BothWays N (scaled d e A) i j ↔ BothWays N A i j := by
    intro i j
    unfold BothWays
    rw [hnb, scaled_has]
    constructor
    · rintro ⟨a, b, c⟩; exact ⟨a, b, by rw [hct a.1, hct b] at c; exact c⟩
    · rintro ⟨a, b, c⟩; exact ⟨a, b, by rw [hct a.1, hct b]; exact c⟩
  have hpc : ∀ {i j}, BothWays N A i j → prodCoupling N (scaled d e A) i j = prodCoupling N A i j := by
    intro i j h
    have hi := h.1.1.1
    have hj := h.2.1.1
    unfold prodCoupling
    rw [hen h.1.1, hen h.2.1, hen (H.has i hi), hen (H.has j hj)]
    have a1 := (hd i).ne'
    have a2 := (hd j).ne'
    have a3 := (he i).ne'
    have a4 := (he j).ne'
    rw [show d i * e j * N.val (A.entry i j) * (d j * e i * N.val (A.entry j i)) =
      (d i * e j * d j * e i) * (N.val (A.entry i j) * N.val (A.entry j i)) by ring,
      show d i * e i * N.val (A.entry i i) * (d j * e j * N.val (A.entry j j)) =
      (d i * e j * d j * e i) * (N.val (A.entry i i) * N.val (A.entry j j)) by ring]
    exact mul_div_mul_left _ _ (by positivity)
  have hMM : ∀ i < A.n, M' i = M i := by
    intro i hi
    have h := hM' i hi
    have : prodSet N (scaled d e A) i = prodSet N A i := by
      ext x
      constructor
      · rintro ⟨j, hj, rfl⟩; exact ⟨j, (hbw i j).mp hj, hpc ((hbw i j).mp hj)⟩
      · rintro ⟨j, hj, rfl⟩; exact ⟨j, (hbw i j).mpr hj, (hpc hj).symm⟩
    rw [this] at h
    exact h.unique (hM i hi)
  have hno : ∀ i, NoOff frob (scaled d e A) i ↔ NoOff frob A i := by
    intro i
    constructor
    · intro h j hj
      have := h j ((hnb i j).mpr hj)
      rw [scaled_entry H.wf hj.1] at this
      exact (hf0 _ (mul_pos (hd i) (he j)) _).mp this
    · intro h j hj
      have hj := (hnb i j).mp hj
      rw [scaled_entry H.wf hj.1]
      exact (hf0 _ (mul_pos (hd i) (he j)) _).mpr (h j hj)
  have hdep : ∀ i j, P'.dep i j = true ↔ P.dep i j = true := by
    intro i j
    rw [h3, h3']
    change (i < A.n ∧ j < A.n ∧ _) ↔ _
    constructor
    · rintro ⟨hi, hj, hb, h⟩
      have hb := (hbw i j).mp hb
      rw [hMM i hi, hMM j hj, hpc hb] at h
      exact ⟨hi, hj, hb, h⟩
    · rintro ⟨hi, hj, hb, h⟩
      rw [hMM i hi, hMM j hj, hpc hb]
      exact ⟨hi, hj, (hbw i j).mpr hb, h⟩
  rw [e1, e1']
  congr 1
  refine props_ext ?_ ?_ hdep ?_
  · intro i
    rw [h1, h1']
    change (i < A.n ∧ _) ↔ _
    constructor
    · rintro ⟨hi, h⟩; exact ⟨hi, by rw [← hMM i hi]; exact h⟩
    · rintro ⟨hi, h⟩; exact ⟨hi, by rw [hMM i hi]; exact h⟩
  · intro i
    rw [h2, h2', hno]
    rfl
  · intro i j
    rw [h4, h4', hdep]

end

/-! ## The hierarchy with a real criterion -/

section
variable {K V : Type} [Ring B] [Field R] [LinearOrder R] [IsStrictOrderedRing R] [AddCommGroup V] [Module R V]

/-- The flags a level of the hierarchy gets: those of `buildDependency` (its exceptions would leave the loop; see the theorem). -/
def depOf (C : Criterion B R) (frob : B → R) (first : Bool) (A : SpMat B) : Props :=
  match buildDependency C frob A first with
  | .ok P => P
  | _ => noFlags

/-- A diagonal block of a positive definite matrix is positive definite. -/
theorem diag_posdef {D : V → V → R} (hD : ScalarProd D) (act : B →+ V →+ V) {A : SpMat B} (hA : A.WF) (hsq : A.n = A.m)
    (hp : A.PosDef D (fun b => act b)) {i : Nat} (hi : i < A.n) (u : V) (hu : u ≠ 0) : 0 < D (act (A.entry i i) u) u := by
  have h := hp (fun k => if k = i then u else 0) ⟨i, hi, by simpa using hu⟩
  unfold blockDot at h
  rw [Finset.sum_eq_single i] at h
  · rw [apply_sum act A hA hi, Finset.sum_eq_single i] at h
    · simpa using h
    · intro j _ hj; simp [hj]
    · intro hn; exact absurd (Finset.mem_range.mpr (by omega)) hn
  · intro k _ hk
    simp only [if_neg hk]
    rw [hD.symm, hD.zero]
  · intro hn; exact absurd (Finset.mem_range.mpr hi) hn

/-- **C60 with C59.** For a symmetric positive definite, structurally symmetric matrix and a norm that does not vanish on positive definite blocks,
the construction of the hierarchy with any of the three criteria ends with a Galerkin hierarchy, and on every level `buildDependency`
returned normally. -/
theorem C60_hierarchy [Nontrivial V] {D : V → V → R} (hD : ScalarProd D) (act : B →+ V →+ V) (N : NormF B R)
    (hN : ∀ b, (∀ u : V, u ≠ 0 → 0 < D (act b u) u) → N.val b ≠ 0) (p : DepPar R) (frob : B → R) (hfrob : ∀ b, 0 ≤ frob b)
    (C : Criterion B R) (hC : C = symMatrixCrit N p ∨ C = symCrit N p ∨ C = unsymCrit N p) (c : Crit) (hc : c.minSize ≤ c.maxSize)
    (h : HierCrit) (fuel : Nat) (junk : B) (A : SpMat B) (hA : A.WF) (hsq : A.n = A.m) (hsym : ∀ i j, A.Has i j → A.Has j i)
    (hp : A.PosDef D (fun b => act b)) (hf : A.n + 1 ≤ fuel) :
    ∃ s, MH.build (depOf C frob) c h fuel junk A = some (.ok s) ∧ IsHierarchy A s ∧
      ∀ (l : Nat) (L : SpMat B), s.mats[l]? = some L → ∀ first, ∃ P, buildDependency C frob L first = .ok P ∧ depOf C frob first L = P := by
  obtain ⟨s, e, H, _⟩ := C59_build (depOf C frob) c h fuel junk hc A hA hsq hsym hf
  refine ⟨s, e, H, ?_⟩
  intro l L hl first
  have hpl := (C59_spd hD act H).2 hp l L hl
  have hw : L.WF ∧ L.n = L.m := by
    cases l with
    | zero => rw [H.finest] at hl; injection hl with hl; subst hl; exact ⟨hA, hsq⟩
    | succ l =>
      obtain ⟨fine, _, hs⟩ := hier_step H hl
      exact ⟨hs.wf.2, hs.square.2.symm⟩
  have hdiag : ∀ i < L.n, N.val (L.entry i i) ≠ 0 :=
    fun i hi => hN _ (fun u hu => diag_posdef hD act hw.1 hw.2 hpl hi u hu)
  have hHas : ∀ i < L.n, L.Has i i := by
    intro i hi
    by_contra hno
    obtain ⟨u, hu⟩ := exists_ne (0 : V)
    have h1 := diag_posdef hD act hw.1 hw.2 hpl hi u hu
    have h2 : L.entry i i = 0 := Row.val_of_not_mem fun b hb => hno ⟨hi, b, hb⟩
    rw [h2] at h1
    simp only [map_zero, AddMonoidHom.zero_apply] at h1
    rw [hD.zero] at h1
    exact absurd h1 (lt_irrefl _)
  have HD : Diagonals N L := ⟨⟨hw.1, hw.2, hHas⟩, hdiag⟩
  have : ∃ P, buildDependency C frob L first = .ok P := by
    rcases hC with rfl | rfl | rfl
    · obtain ⟨P, _, e, _⟩ := C60_matrix N p frob hfrob L HD first; exact ⟨P, e⟩
    · obtain ⟨P, _, e, _⟩ := C60_symmetric N p frob hfrob L HD.toStoredDiag first; exact ⟨P, e⟩
    · obtain ⟨P, _, e, _⟩ := C60_unsymmetric N p frob hfrob L HD.toStoredDiag first; exact ⟨P, e⟩
  obtain ⟨P, e⟩ := this
  exact ⟨P, e, by unfold depOf; rw [e]⟩

end

/-! ## The default parameters -/

theorem isoLoop_eq (d : Nat) : ∀ (dim : Nat) (s : Nat × Nat), isoLoop d dim s = (s.1 * d ^ dim, s.2 + dim * (d - 1)) := by
  intro dim
  induction dim with
  | zero => intro s; simp [isoLoop]
  | succ k ih => intro s; rw [isoLoop, ih]; simp only [pow_succ, Prod.mk.injEq]; constructor <;> ring

/-- **C60.** The default parameters, and those set for a dimension and diameter, satisfy the condition `minAggregateSize ≤ maxAggregateSize` that the
aggregation needs to end (C41): `diameter^dim` and one and a half times that; the maximal distance is `(dim+1)(diameter-1)`, for the
anisotropic setting `dim-1` more. -/
theorem C60_default_parameters (c : Crit) (dim diameter : Nat) :
    defaultCrit.minSize ≤ defaultCrit.maxSize ∧
    (setIsotropic c dim diameter).minSize = diameter ^ dim ∧ (setIsotropic c dim diameter).maxSize = diameter ^ dim * 3 / 2 ∧
    (setIsotropic c dim diameter).maxDistance = (dim + 1) * (diameter - 1) ∧
    (setIsotropic c dim diameter).minSize ≤ (setIsotropic c dim diameter).maxSize ∧
    (setAnisotropic c dim diameter).minSize ≤ (setAnisotropic c dim diameter).maxSize ∧
    (setAnisotropic c dim diameter).maxDistance = (dim + 1) * (diameter - 1) + (dim - 1) ∧
    (setIsotropic c dim diameter).skipIsolated = c.skipIsolated ∧ (setIsotropic c dim diameter).maxConn = c.maxConn := by
  unfold setAnisotropic setIsotropic
  rw [isoLoop_eq]
  dsimp only
  refine ⟨by decide, by simp, by simp, by ring, by simp; omega, by simp; omega, by ring_nf, rfl, rfl⟩

/-! ## A concrete case -/

/-- Row `i` of the demo: a chain whose first link is strong and whose last is weak. -/
def depDemo : SpMat ℚ := ⟨3, 3, fun i => if i = 0 then [(0, 2), (1, -1)] else if i = 1 then [(0, -1), (1, 2), (2, -1/10)] else [(1, -1/10), (2, 2)]⟩

/-- The norm `FirstDiagonal` of a scalar. -/
def idNorm : NormF ℚ ℚ := ⟨id, true⟩

/-- The default `alpha` and a large `beta`. -/
def depDemoPar : DepPar ℚ := ⟨1/3, 1/100, -1000000⟩

/-- The flags of the first level as lists. -/
def flagList (r : Res Props) : List Bool × List Bool × List Bool :=
  match r with
  | .ok P => ((List.range 3).map P.isolated, (List.range 3).map P.excluded,
      [P.dep 0 1, P.dep 1 0, P.dep 1 2, P.dep 2 1, P.infl 0 1, P.infl 1 0, P.infl 1 2, P.infl 2 1])
  | _ => ([], [], [])

example : Diagonals idNorm depDemo := by
  refine ⟨⟨?_, rfl, ?_⟩, ?_⟩
  · intro i hi
    change i < 3 at hi
    interval_cases i <;> simp [depDemo, Row.Asc]
  · intro i hi
    change i < 3 at hi
    interval_cases i <;> simp [depDemo, SpMat.Has, Row.Has]
  · intro i hi
    change i < 3 at hi
    interval_cases i <;> simp [depDemo, idNorm, SpMat.entry, Row.val]

example : flagList (buildDependency (symCrit idNorm depDemoPar) (fun b => b * b) depDemo true) =
    ([false, false, true], [false, false, false], [true, true, false, false, true, true, false, false]) := by decide +kernel

example : flagList (buildDependency (symMatrixCrit idNorm depDemoPar) (fun b => b * b) depDemo true) =
    ([false, false, true], [false, false, false], [true, true, false, false, true, true, false, false]) := by decide +kernel

/-- `Dependency` decides differently: the last vertex depends on the middle one, not the other way round. -/
example : flagList (buildDependency (unsymCrit idNorm depDemoPar) (fun b => b * b) depDemo true) =
    ([false, false, false], [false, false, false], [true, true, false, true, true, true, true, false]) := by decide +kernel

/-- The negative of the matrix: all vertices isolated. -/
example : flagList (buildDependency (symCrit idNorm depDemoPar) (fun b => b * b) (scaled (fun _ => (-1 : ℚ)) (fun _ => (1 : ℚ)) depDemo) true) =
    ([true, true, true], [false, false, false], [false, false, false, false, false, false, false, false]) := by decide +kernel

/-- A zero diagonal entry. -/
example : (match buildDependency (symMatrixCrit idNorm depDemoPar) (fun b => b * b) ⟨1, 1, fun _ => [(0, 0)]⟩ true with
    | .throw .istlError => true
    | _ => false) = true := by decide +kernel

end Amg
end Istl
