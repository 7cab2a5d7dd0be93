import Verif.Lemmas.Arpack2

/-!
# C92: the ARPACK++ wrapper
-/

namespace Istl
namespace Arpack

variable {p q : Nat} {A : SpMat Blk}

/-- With as many block rows as block columns, the three products of the wrapper are the products with the matrix of numbers, whatever was
computed before, and no access is outside the arrays and vectors. -/
theorem C92_products (hA : A.WF) (hsq : A.n = A.m) {W : Wrapped} (hW : Of p q A W) :
    (∀ v w f, VecIs v (A.n * q) f → w.length = A.n * p →
      ∃ w' W', multMv p q W v w = .ok (w', W') ∧ Of p q A W' ∧ VecIs w' (A.n * p) (mulVec (A.n * q) (flat p q A) f)) ∧
    (∀ v w f, VecIs v (A.n * q) f → w.length = A.n * q →
      ∃ w' W', multMtMv p q W v w = .ok (w', W') ∧ Of p q A W' ∧
        VecIs w' (A.n * q) (tmulVec (A.n * p) (flat p q A) (mulVec (A.n * q) (flat p q A) f))) ∧
    (∀ v w f, VecIs v (A.n * p) f → w.length = A.n * p →
      ∃ w' W', multMMtv p q W v w = .ok (w', W') ∧ Of p q A W' ∧
        VecIs w' (A.n * p) (mulVec (A.n * q) (flat p q A) (tmulVec (A.n * p) (flat p q A) f))) :=
  ⟨fun _ _ _ hv hw => multMv_ok hA hsq hW hv hw, fun _ _ _ hv hw => multMtMv_ok hA hsq hW hv hw,
    fun _ _ _ hv hw => multMMtv_ok hA hsq hW hv hw⟩

/-- A matrix which is not square is refused by the functions for symmetric matrices. -/
theorem C92_not_square (ar : Eig) (which : Which) (x : BVec) (h : A.m * p ≠ A.n * q) :
    computeSym ar which p q A x = .throw .istlError ∧ computeSymCond2 ar p q A = .throw .istlError := by
  constructor
  · simp [computeSym, wrap, h]
  · simp [computeSymCond2, wrap, h]

section Sym
variable {k : Nat} {ar : Eig}

theorem computeSym_run (hA : A.WF) (hsq : A.n = A.m) (hs : Sound ar) {which : Which} {x : BVec} (hx : x.n ≤ A.n)
    {r : List ℝ × List (List ℝ)} (h : ar (A.n * k) 1 (callMv k k (wrap k k A) (A.n * k)) which = .ok r) :
    ∃ lam X x', r = ([lam], [X]) ∧ computeSym ar which k k A x = .ok (lam, x') ∧ x'.n = x.n ∧
      (∀ B i, B < x.n → i < k → x'.at' B i = X.getD (B * k + i) 0) ∧ X.length = A.n * k := by
  obtain ⟨h1, h2, h3, h4⟩ := hs _ _ _ _ _ h
  obtain ⟨lam, e1⟩ := getElem_zero h1
  obtain ⟨X, e2⟩ := getElem_zero h2
  have hp := h3 0 lam X (by rw [e1]; rfl) (by rw [e2]; rfl)
  have hX : VecIs X (A.n * k) (fun i => X.getD i 0) := by have := vecIs_getD X; rwa [hp.1] at this
  obtain ⟨x', f1, f2, f3⟩ := fromArray_ok (k := k) hX x (Nat.mul_le_mul_right k hx)
  obtain ⟨w, g1, g2⟩ := callMv_ok (p := k) (q := k) hA hsq X _ hX
  obtain ⟨x2, f1', _⟩ := fromArray_ok (k := k) g2 x' (by rw [f2]; exact Nat.mul_le_mul_right k hx)
  refine ⟨lam, X, x', Prod.ext e1 e2, ?_, f2, f3, hp.1⟩
  rw [computeSym]
  have hm : (wrap k k A).m = A.n * k := by rw [hsq]; rfl
  have hn : (wrap k k A).n = A.n * k := rfl
  simp only [hm, hn, ne_eq, not_true_eq_false, if_false, h, Res.ok_bind, e1, e2]
  simp [rd, Res.ok_bind, f1, g1, f1']

/-- `computeSymMaxMagnitude`, `computeSymMinMagnitude`: the number is an eigenvalue of the matrix, of largest or smallest magnitude among
all eigenvalues, and `x` an eigenvector of it. -/
theorem C92_eigen (hA : A.WF) (hsq : A.n = A.m) (hs : Sound ar) {x x' : BVec} (hx : x.n = A.n) {which : Which} {lam : ℝ}
    (h : computeSym ar which k k A x = .ok (lam, x')) :
    x'.n = A.n ∧ IsEig (A.n * k) (mulVec (A.n * k) (flat k k A)) lam (x'.flat k) ∧
      (which = .LM → ∀ mu f, IsEig (A.n * k) (mulVec (A.n * k) (flat k k A)) mu f → |mu| ≤ |lam|) ∧
      (which = .SM → ∀ mu f, IsEig (A.n * k) (mulVec (A.n * k) (flat k k A)) mu f → |lam| ≤ |mu|) := by
  have hm : (wrap k k A).m = A.n * k := by rw [hsq]; rfl
  have hn : (wrap k k A).n = A.n * k := rfl
  have h' := h
  rw [computeSym] at h'
  simp only [hm, hn, ne_eq, not_true_eq_false, if_false] at h'
  obtain ⟨r, hr, _⟩ := Res.bind_eq_ok.mp h'
  obtain ⟨lam', X, x2, e, hc, f2, f3, hl⟩ := computeSym_run hA hsq hs (x := x) (le_of_eq hx) hr
  rw [h] at hc
  injection hc with hc
  injection hc with hc1 hc2
  subst hc1; subst hc2
  obtain ⟨_, _, h3, h4⟩ := hs _ _ _ _ _ hr
  have hp := h3 0 lam X (by rw [e]; rfl) (by rw [e]; rfl)
  have hX : VecIs X (A.n * k) (x'.flat k) := by
    have := vecIs_getD X
    rw [hl] at this
    refine this.congr (fun i hi => ?_)
    have hk : 0 < k := by rcases Nat.eq_zero_or_pos k with h | h; · rw [h] at hi; omega
                          · exact h
    rw [BVec.flat, f3 _ _ (by rw [hx]; exact Nat.div_lt_of_lt_mul (by rw [Nat.mul_comm]; exact hi)) (Nat.mod_lt _ hk), Nat.div_add_mod']
  refine ⟨f2.trans hx, eig_of_pair (callMv_ok hA hsq) hX hp, ?_, ?_⟩
  · intro hw mu f hf
    have := h4 mu _ (pair_of_eig (callMv_ok hA hsq) hf)
    rw [hw] at this
    exact this lam (by rw [e]; simp)
  · intro hw mu f hf
    have := h4 mu _ (pair_of_eig (callMv_ok hA hsq) hf)
    rw [hw] at this
    exact this lam (by rw [e]; simp)

/-- No undefined behaviour, if `x` has at most as many blocks as the matrix rows. -/
theorem C92_eigen_safe (hA : A.WF) (hsq : A.n = A.m) (hs : Sound ar) (hsafe : Safe ar) {x : BVec} (hx : x.n ≤ A.n) (which : Which) :
    computeSym ar which k k A x ≠ .ub := by
  have hm : (wrap k k A).m = A.n * k := by rw [hsq]; rfl
  have hn : (wrap k k A).n = A.n * k := rfl
  cases hr : ar (A.n * k) 1 (callMv k k (wrap k k A) (A.n * k)) which with
  | ok r =>
    obtain ⟨lam', X, x2, e, hc, _⟩ := computeSym_run hA hsq hs (x := x) hx hr
    rw [hc]; exact fun h => by cases h
  | throw e =>
    rw [computeSym]
    simp only [hm, hn, ne_eq, not_true_eq_false, if_false, hr]
    exact fun h => by cases h
  | ub =>
    refine absurd hr (hsafe _ _ _ _ (fun v hv => ?_))
    have h0 := vecIs_getD v
    rw [hv] at h0
    obtain ⟨w, hw, _⟩ := callMv_ok (p := k) (q := k) hA hsq v _ h0
    rw [hw]; exact fun h => by cases h


private theorem symCond_run (hA : A.WF) (hsq : A.n = A.m) (hs : Sound ar) {c : ℝ} (h : computeSymCond2 ar k k A = .ok c) :
    ∃ lo hi f g, IsEig (A.n * k) (mulVec (A.n * k) (flat k k A)) hi f ∧ IsEig (A.n * k) (mulVec (A.n * k) (flat k k A)) lo g ∧
      c = |hi / lo| ∧ ∀ mu h, IsEig (A.n * k) (mulVec (A.n * k) (flat k k A)) mu h → lo ≤ mu ∧ mu ≤ hi := by
  have hm : (wrap k k A).m = A.n * k := by rw [hsq]; rfl
  have hn : (wrap k k A).n = A.n * k := rfl
  rw [computeSymCond2] at h
  simp only [hm, hn, ne_eq, not_true_eq_false, if_false] at h
  obtain ⟨r, hr, h⟩ := Res.bind_eq_ok.mp h
  obtain ⟨h1, h2, h3, h4⟩ := hs _ _ _ _ _ hr
  obtain ⟨lo, hi, e1⟩ := getElem_two h1
  obtain ⟨X, Y, e2⟩ := getElem_two h2
  rw [e1, e2] at h h3
  have p0 := h3 0 lo X rfl rfl
  have p1 := h3 1 hi Y rfl rfl
  have vX : VecIs X (A.n * k) (fun i => X.getD i 0) := by have := vecIs_getD X; rwa [p0.1] at this
  have vY : VecIs Y (A.n * k) (fun i => Y.getD i 0) := by have := vecIs_getD Y; rwa [p1.1] at this
  obtain ⟨w0, g0, _⟩ := callMv_ok (p := k) (q := k) hA hsq X _ vX
  obtain ⟨w1, g1, _⟩ := callMv_ok (p := k) (q := k) hA hsq Y _ vY
  simp [rd, Res.ok_bind, g0, g1] at h
  refine ⟨lo, hi, _, _, eig_of_pair (callMv_ok hA hsq) vY p1, eig_of_pair (callMv_ok hA hsq) vX p0, by rw [← h, abs_div], ?_⟩
  intro mu f hf
  exact h4 mu _ (pair_of_eig (callMv_ok hA hsq) hf) lo hi e1

/-- `computeSymCond2` is the quotient of the magnitudes of the largest and the smallest eigenvalue, by value and not by magnitude. -/
theorem C92_cond_ends (hA : A.WF) (hsq : A.n = A.m) (hs : Sound ar) {c : ℝ} (h : computeSymCond2 ar k k A = .ok c) :
    ∃ lo hi f g, IsEig (A.n * k) (mulVec (A.n * k) (flat k k A)) hi f ∧ IsEig (A.n * k) (mulVec (A.n * k) (flat k k A)) lo g ∧
      c = |hi / lo| ∧ ∀ mu h, IsEig (A.n * k) (mulVec (A.n * k) (flat k k A)) mu h → lo ≤ mu ∧ mu ≤ hi :=
  symCond_run hA hsq hs h

/-- If all eigenvalues are positive, `computeSymCond2` gives the spectral condition number. -/
theorem C92_cond (hA : A.WF) (hsq : A.n = A.m) (hs : Sound ar) {c : ℝ} (h : computeSymCond2 ar k k A = .ok c)
    (hpos : ∀ mu f, IsEig (A.n * k) (mulVec (A.n * k) (flat k k A)) mu f → 0 < mu) : IsCond (A.n * k) (flat k k A) c := by
  obtain ⟨lo, hi, f, g, h1, h2, h3, h4⟩ := symCond_run hA hsq hs h
  have p2 := hpos _ _ h2
  refine ⟨hi, lo, f, g, h1, h2, ne_of_gt p2, by rw [h3, abs_div], ?_⟩
  intro mu f hf
  have := h4 mu f hf
  rw [abs_of_pos p2, abs_of_pos (hpos _ _ hf), abs_of_pos (hpos _ _ h1)]
  exact this

/-- If all eigenvalues are negative, it gives the reciprocal, at most 1: not the documented quotient of the dominant and the least dominant
eigenvalue. -/
theorem C92_cond_negative (hA : A.WF) (hsq : A.n = A.m) (hs : Sound ar) {c : ℝ} (h : computeSymCond2 ar k k A = .ok c)
    (hneg : ∀ mu f, IsEig (A.n * k) (mulVec (A.n * k) (flat k k A)) mu f → mu < 0) : c ≤ 1 ∧ IsCond (A.n * k) (flat k k A) (1 / c) := by
  obtain ⟨lo, hi, f, g, h1, h2, h3, h4⟩ := symCond_run hA hsq hs h
  have n1 := hneg _ _ h1
  have n2 := hneg _ _ h2
  have hle := (h4 _ _ h2).2
  rw [abs_div] at h3
  refine ⟨?_, lo, hi, g, f, h2, h1, ne_of_lt n1, by rw [h3, one_div_div], ?_⟩
  · rw [h3, abs_of_neg n1, abs_of_neg n2, div_le_one (by linarith)]
    linarith
  · intro mu f hf
    have := h4 mu f hf
    rw [abs_of_neg n2, abs_of_neg (hneg _ _ hf), abs_of_neg n1]
    constructor <;> linarith

end Sym

section NonSym
variable {ar : Eig}

private theorem computeNonSym_run (hA : A.WF) (hsq : A.n = A.m) (hpq : q ≤ p) (hs : Sound ar) {which : Which} {x : BVec} (hx : x.n ≤ A.n)
    {r : List ℝ × List (List ℝ)} (h : ar (A.n * q) 1 (callMtMv p q (wrap p q A) (A.n * q)) which = .ok r) :
    ∃ lam X x', r = ([lam], [X]) ∧ computeNonSym ar which p q A x = .ok (Real.sqrt lam, x') ∧ x'.n = x.n ∧
      (∀ B i, B < x.n → i < q → x'.at' B i = X.getD (B * q + i) 0) ∧ X.length = A.n * q := by
  obtain ⟨h1, h2, h3, h4⟩ := hs _ _ _ _ _ h
  obtain ⟨lam, e1⟩ := getElem_zero h1
  obtain ⟨X, e2⟩ := getElem_zero h2
  have hp := h3 0 lam X (by rw [e1]; rfl) (by rw [e2]; rfl)
  have hX : VecIs X (A.n * q) (fun i => X.getD i 0) := by have := vecIs_getD X; rwa [hp.1] at this
  obtain ⟨x', f1, f2, f3⟩ := fromArray_ok (k := q) hX x (Nat.mul_le_mul_right q hx)
  obtain ⟨w, g1, g2⟩ := callMtMv_ok (p := p) (q := q) hA hsq X _ hX
  obtain ⟨x2, f1', _⟩ := fromArray_ok (k := q) g2 x' (by rw [f2]; exact Nat.mul_le_mul_right q hx)
  refine ⟨lam, X, x', Prod.ext e1 e2, ?_, f2, f3, hp.1⟩
  rw [computeNonSym]
  have hm : (wrap p q A).m = A.n * p := by rw [hsq]; rfl
  have hn : (wrap p q A).n = A.n * q := rfl
  have hlt : ¬ A.n * p < A.n * q := not_lt.mpr (Nat.mul_le_mul_left _ hpq)
  simp only [hm, hn, hlt, if_false, h, Res.ok_bind, e1, e2]
  simp [rd, Res.ok_bind, f1, g1, f1']

/-- `computeNonSymMax`, `computeNonSymMin`: the number is the largest or the smallest factor by which the matrix stretches a vector, `x` is
a vector stretched by it and an eigenvector of `A^T A`: a right-singular vector. -/
theorem C92_singular (hA : A.WF) (hsq : A.n = A.m) (hpq : q ≤ p) (hs : Sound ar) {x x' : BVec} (hx : x.n = A.n) {which : Which} {sig : ℝ}
    (h : computeNonSym ar which p q A x = .ok (sig, x')) :
    x'.n = A.n ∧
      IsEig (A.n * q) (fun f => tmulVec (A.n * p) (flat p q A) (mulVec (A.n * q) (flat p q A) f)) (sig ^ 2) (x'.flat q) ∧
      (which = .LA → MaxStretch (A.n * p) (A.n * q) (flat p q A) sig (x'.flat q)) ∧
      (which = .SA → MinStretch (A.n * p) (A.n * q) (flat p q A) sig (x'.flat q)) := by
  have hm : (wrap p q A).m = A.n * p := by rw [hsq]; rfl
  have hn : (wrap p q A).n = A.n * q := rfl
  have hlt : ¬ A.n * p < A.n * q := not_lt.mpr (Nat.mul_le_mul_left _ hpq)
  have h' := h
  rw [computeNonSym] at h'
  simp only [hm, hn, hlt, if_false] at h'
  obtain ⟨r, hr, _⟩ := Res.bind_eq_ok.mp h'
  obtain ⟨lam, X, x2, e, hc, f2, f3, hl⟩ := computeNonSym_run hA hsq hpq hs (x := x) (le_of_eq hx) hr
  rw [h] at hc
  injection hc with hc
  injection hc with hc1 hc2
  subst hc1; subst hc2
  obtain ⟨_, _, h3, h4⟩ := hs _ _ _ _ _ hr
  have hp := h3 0 lam X (by rw [e]; rfl) (by rw [e]; rfl)
  have hX : VecIs X (A.n * q) (x'.flat q) := by
    have := vecIs_getD X
    rw [hl] at this
    refine this.congr (fun i hi => ?_)
    have hk : 0 < q := by rcases Nat.eq_zero_or_pos q with h | h; · rw [h] at hi; omega
                          · exact h
    rw [BVec.flat, f3 _ _ (by rw [hx]; exact Nat.div_lt_of_lt_mul (by rw [Nat.mul_comm]; exact hi)) (Nat.mod_lt _ hk), Nat.div_add_mod']
  have hE := eig_of_pair (callMtMv_ok (p := p) hA hsq) hX hp
  refine ⟨f2.trans hx, by rw [Real.sq_sqrt (eig_stretch hE).2]; exact hE, ?_, ?_⟩
  · intro hw
    refine maxStretch_of hE (fun mu f hf => ?_)
    have := h4 mu _ (pair_of_eig (callMtMv_ok (p := p) hA hsq) hf)
    rw [hw] at this
    exact this lam (by rw [e]; simp)
  · intro hw
    refine minStretch_of hE (fun mu f hf => ?_)
    have := h4 mu _ (pair_of_eig (callMtMv_ok (p := p) hA hsq) hf)
    rw [hw] at this
    exact this lam (by rw [e]; simp)

/-- `computeNonSymCond2` is the quotient of the largest and the smallest stretching factor. -/
theorem C92_singular_cond (hA : A.WF) (hsq : A.n = A.m) (hpq : q ≤ p) (hs : Sound ar) {c : ℝ} (h : computeNonSymCond2 ar p q A = .ok c) :
    ∃ big small f g, MaxStretch (A.n * p) (A.n * q) (flat p q A) big f ∧ MinStretch (A.n * p) (A.n * q) (flat p q A) small g ∧
      c = big / small := by
  have hm : (wrap p q A).m = A.n * p := by rw [hsq]; rfl
  have hn : (wrap p q A).n = A.n * q := rfl
  have hlt : ¬ A.n * p < A.n * q := not_lt.mpr (Nat.mul_le_mul_left _ hpq)
  rw [computeNonSymCond2] at h
  simp only [hm, hn, hlt, if_false] at h
  obtain ⟨r, hr, h⟩ := Res.bind_eq_ok.mp h
  obtain ⟨h1, h2, h3, h4⟩ := hs _ _ _ _ _ hr
  obtain ⟨lo, hi, e1⟩ := getElem_two h1
  obtain ⟨X, Y, e2⟩ := getElem_two h2
  rw [e1, e2] at h h3
  have p0 := h3 0 lo X rfl rfl
  have p1 := h3 1 hi Y rfl rfl
  have vX : VecIs X (A.n * q) (fun i => X.getD i 0) := by have := vecIs_getD X; rwa [p0.1] at this
  have vY : VecIs Y (A.n * q) (fun i => Y.getD i 0) := by have := vecIs_getD Y; rwa [p1.1] at this
  obtain ⟨w0, g0, _⟩ := callMtMv_ok (p := p) (q := q) hA hsq X _ vX
  obtain ⟨w1, g1, _⟩ := callMtMv_ok (p := p) (q := q) hA hsq Y _ vY
  simp [rd, Res.ok_bind, g0, g1] at h
  refine ⟨Real.sqrt hi, Real.sqrt lo, _, _, maxStretch_of (eig_of_pair (callMtMv_ok hA hsq) vY p1) ?_,
    minStretch_of (eig_of_pair (callMtMv_ok hA hsq) vX p0) ?_, h.symm⟩
  · intro mu f hf
    exact (h4 mu _ (pair_of_eig (callMtMv_ok hA hsq) hf) lo hi e1).2
  · intro mu f hf
    exact (h4 mu _ (pair_of_eig (callMtMv_ok hA hsq) hf) lo hi e1).1

/-- A matrix with more block rows than block columns, square blocks: documented as supported, but refused as having fewer rows than
columns, because the wrapper exchanges `N()` and `M()`. -/
theorem C92_tall_refused {k : Nat} (hk : 0 < k) (h : A.m < A.n) (which : Which) (x : BVec) :
    computeNonSym ar which k k A x = .throw .istlError ∧ computeNonSymCond2 ar k k A = .throw .istlError := by
  have hlt : A.m * k < A.n * k := Nat.mul_lt_mul_of_pos_right h hk
  constructor
  · simp [computeNonSym, wrap, hlt]
  · simp [computeNonSymCond2, wrap, hlt]

private theorem forRangeM_ub {S : Type} {f : Nat → S → Res S} (hf : ∀ i s, (∃ s', f i s = .ok s') ∨ f i s = .ub) (n : Nat) (s : S) :
    (∃ s', forRangeM n f s = .ok s') ∨ forRangeM n f s = .ub := by
  induction n with
  | zero => exact Or.inl ⟨s, rfl⟩
  | succ n ih =>
    rw [forRangeM_succ]
    rcases ih with ⟨s', h⟩ | h
    · rw [h]; exact hf n s'
    · rw [h]; exact Or.inr rfl

private theorem fromArray_or (k : Nat) (v : List ℝ) (b : BVec) : (∃ b', fromArray k v b = .ok b' ∧ b'.n = b.n) ∨ fromArray k v b = .ub := by
  have h : (∃ b', fromArray k v b = .ok b') ∨ fromArray k v b = .ub := by
    refine forRangeM_ub (fun B b => forRangeM_ub (fun i b => ?_) _ _) _ _
    simp only [rd]
    cases v[B * k + i]? with
    | none => exact Or.inr rfl
    | some z => exact Or.inl ⟨_, rfl⟩
  rcases h with ⟨b', h⟩ | h
  · left
    refine ⟨b', h, ?_⟩
    have key : ∀ (n : Nat) (g : Nat → BVec → Res BVec), (∀ i s s', g i s = .ok s' → s'.n = s.n) → ∀ s s', forRangeM n g s = .ok s' → s'.n = s.n := by
      intro n g hg
      induction n with
      | zero => intro s s' h; cases h; rfl
      | succ n ih =>
        intro s s' h
        rw [forRangeM_succ] at h
        obtain ⟨t, h1, h2⟩ := Res.bind_eq_ok.mp h
        rw [hg _ _ _ h2, ih _ _ h1]
    refine key _ _ (fun B s s' h => key _ _ (fun i t t' h => ?_) _ _ h) _ _ h
    obtain ⟨z, _, h⟩ := Res.bind_eq_ok.mp h
    cases h; rfl
  · exact Or.inr h

private theorem mvC_ub_row {x y : BVec} {i : Nat} (hi : i < A.n) (h : y.n ≤ i) : mvC p q A x y = .ub := by
  rw [mvC, if_neg]
  simp only [List.all_eq_true, Bool.and_eq_true, decide_eq_true_eq, List.mem_range]
  intro hall
  have := (hall i hi).1
  omega

private theorem mvC_ub_col {x y : BVec} {i : Nat} {e : Nat × Blk} (hi : i < A.n) (he : e ∈ A.row i) (h : x.n ≤ e.1) : mvC p q A x y = .ub := by
  rw [mvC, if_neg]
  simp only [List.all_eq_true, Bool.and_eq_true, decide_eq_true_eq, List.mem_range]
  intro hall
  have := (hall i hi).2 e he
  omega

/-- The products themselves leave their vectors if the numbers of block rows and block columns differ: with more block rows always, with
more block columns as soon as a stored column index is not below the number of block rows. -/
theorem C92_rectangular_ub {W : Wrapped} (hW : Of p q A W)
    (h : A.m < A.n ∨ ∃ i, i < A.n ∧ ∃ e ∈ A.row i, A.n ≤ e.1) (v w : List ℝ) :
    multMv p q W v w = .ub ∧ multMtMv p q W v w = .ub := by
  obtain ⟨hWA, hm, hn, hd, hr⟩ := hW
  have hd : W.dom.n = A.n := hd
  have hr : W.ran.n = A.m := hr
  have key : ∀ d : BVec, d.n = A.n → mvC p q W.A d W.ran = .ub := by
    intro d hdn
    rw [hWA]
    rcases h with h | ⟨i, hi, e, he, h⟩
    · exact mvC_ub_row h (by rw [hr])
    · exact mvC_ub_col hi he (by rw [hdn]; exact h)
  rcases fromArray_or q v W.dom with ⟨d, h1, h2⟩ | h1
  · constructor
    · rw [multMv, h1, Res.ok_bind, key d (by rw [h2, hd])]; rfl
    · rw [multMtMv, h1, Res.ok_bind, key d (by rw [h2, hd])]; rfl
  · constructor
    · rw [multMv, h1]; rfl
    · rw [multMtMv, h1]; rfl

/-- So the largest singular value of a matrix with more block columns (square blocks), although not refused, is never computed: ARPACK
would have to get its eigenvectors from undefined behaviour. -/
theorem C92_wide_never {k : Nat} (hs : Sound ar) (h : ∃ i, i < A.n ∧ ∃ e ∈ A.row i, A.n ≤ e.1) (which : Which) (x : BVec) (r : ℝ × BVec) :
    computeNonSym ar which k k A x ≠ .ok r := by
  intro h0
  rw [computeNonSym] at h0
  by_cases hlt : (wrap k k A).m < (wrap k k A).n
  · simp [hlt] at h0
  · simp only [hlt, if_false] at h0
    obtain ⟨s, h1, _⟩ := Res.bind_eq_ok.mp h0
    obtain ⟨g1, g2, g3, _⟩ := hs _ _ _ _ _ h1
    obtain ⟨lam, e1⟩ := getElem_zero g1
    obtain ⟨X, e2⟩ := getElem_zero g2
    have hp := (g3 0 lam X (by rw [e1]; rfl) (by rw [e2]; rfl)).2.2
    rw [callMtMv, (C92_rectangular_ub of_wrap (Or.inr h) _ _).2] at hp
    cases hp

end NonSym

/-! ### A diagonal matrix with eigenvalues -2, 1, 3, and an exact ARPACK -/

/-- An exact ARPACK: some right answer if there is one, else an exception. -/
noncomputable def exact' : Eig := fun n nev op which =>
  open Classical in if h : ∃ r, Answer n nev op which r then .ok h.choose else .throw .istlError

theorem exact_sound : Sound exact' := by
  intro n nev op which r h
  unfold exact' at h
  split at h
  · rename_i hh; injection h with h; rw [← h]; exact hh.choose_spec
  · cases h

theorem exact_safe : Safe exact' := by
  intro n nev op which _ h
  unfold exact' at h
  split at h <;> cases h

theorem exact_ok {n nev : Nat} {op : List ℝ → Res (List ℝ)} {which : Which} (r : List ℝ × List (List ℝ)) (h : Answer n nev op which r) :
    ∃ r, exact' n nev op which = .ok r := by
  unfold exact'
  rw [dif_pos ⟨r, h⟩]
  exact ⟨_, rfl⟩

/-- The diagonal -2, 1, 3. -/
noncomputable def dg (i : Nat) : ℝ := if i = 0 then -2 else if i = 1 then 1 else 3

/-- The matrix. -/
noncomputable def diag3 : SpMat Blk := ⟨3, 3, fun i => [(i, fun _ _ => dg i)]⟩

theorem diag3_wf : diag3.WF := by
  intro i hi
  refine ⟨by simp [diag3, Row.Asc], ?_⟩
  intro e he
  have : e = (i, fun _ _ => dg i) := by simpa [diag3] using he
  rw [this]; exact hi

theorem diag3_entry (i j : Nat) : diag3.entry i j = if j = i then ((fun _ _ => dg i) : Blk) else 0 := by
  by_cases h : j = i
  · simp [SpMat.entry, diag3, Row.val, h]
  · simp [SpMat.entry, diag3, Row.val, h, Ne.symm h]

theorem diag3_flat (i j : Nat) : flat 1 1 diag3 i j = if j = i then dg i else 0 := by
  rw [flat, diag3_entry, Nat.div_one, Nat.div_one]
  split <;> rfl

theorem diag3_mul (f : Nat → ℝ) {i : Nat} (hi : i < 3) : mulVec (3 * 1) (flat 1 1 diag3) f i = dg i * f i := by
  rw [mulVec]
  simp only [diag3_flat, ite_mul, zero_mul]
  rw [Finset.sum_ite_eq' (Finset.range (3 * 1)) i (fun j => dg i * f j), if_pos (Finset.mem_range.mpr (by omega))]

theorem diag3_eig {mu : ℝ} {f : Nat → ℝ} (h : IsEig (3 * 1) (mulVec (3 * 1) (flat 1 1 diag3)) mu f) : mu = -2 ∨ mu = 1 ∨ mu = 3 := by
  obtain ⟨⟨i, hi, h0⟩, he⟩ := h
  have := he i hi
  rw [diag3_mul f (by omega)] at this
  have hd : dg i = mu := mul_right_cancel₀ h0 this
  have : i = 0 ∨ i = 1 ∨ i = 2 := by omega
  rcases this with e | e | e <;> rw [e] at hd <;> norm_num [dg] at hd
  · exact Or.inl hd.symm
  · exact Or.inr (Or.inl hd.symm)
  · exact Or.inr (Or.inr hd.symm)

theorem diag3_unit {i : Nat} (hi : i < 3) : IsEig (3 * 1) (mulVec (3 * 1) (flat 1 1 diag3)) (dg i) (fun j => if j = i then 1 else 0) := by
  refine ⟨⟨i, by omega, by simp⟩, fun j hj => ?_⟩
  rw [diag3_mul _ (by omega)]
  by_cases h : j = i <;> simp [h]

theorem diag3_op : Computes (3 * 1) (3 * 1) (callMv 1 1 (wrap 1 1 diag3) (3 * 1)) (mulVec (3 * 1) (flat 1 1 diag3)) :=
  callMv_ok diag3_wf rfl

theorem diag3_mem {mu : ℝ} {X : List ℝ} (h : EigPair (3 * 1) (callMv 1 1 (wrap 1 1 diag3) (3 * 1)) mu X) : mu = -2 ∨ mu = 1 ∨ mu = 3 := by
  have := vecIs_getD X
  rw [h.1] at this
  exact diag3_eig (eig_of_pair diag3_op this h)

/-- For this symmetric matrix `computeSymCond2` gives 3/2, although the spectral condition number is 3. -/
theorem C92_cond_indefinite {ar : Eig} (hs : Sound ar) {c : ℝ} (h : computeSymCond2 ar 1 1 diag3 = .ok c) :
    c = 3 / 2 ∧ IsCond (3 * 1) (flat 1 1 diag3) 3 := by
  obtain ⟨lo, hi, f, g, h1, h2, h3, h4⟩ := C92_cond_ends (k := 1) diag3_wf rfl hs h
  have a := (h4 _ _ (diag3_unit (i := 0) (by omega))).1
  have b := (h4 _ _ (diag3_unit (i := 2) (by omega))).2
  have e1 := diag3_eig h1
  have e2 := diag3_eig h2
  norm_num [dg] at a b
  have hhi : hi = 3 := by rcases e1 with e | e | e <;> linarith
  have hlo : lo = -2 := by rcases e2 with e | e | e <;> linarith
  refine ⟨by rw [h3, hhi, hlo]; norm_num [abs_of_neg], ?_⟩
  refine ⟨dg 2, dg 1, _, _, diag3_unit (i := 2) (by omega), diag3_unit (i := 1) (by omega), by norm_num [dg], by norm_num [dg], ?_⟩
  intro mu k hk
  rcases diag3_eig hk with e | e | e <;> rw [e] <;> norm_num [dg]

/-- Non-vacuity: the dominant eigenvalue of the matrix is found, and it is 3. -/
example : ∃ x', computeSym exact' .LM 1 1 diag3 ⟨3, fun _ _ => 0⟩ = .ok (3, x') := by
  obtain ⟨r, hr⟩ := exact_ok (n := 3 * 1) (nev := 1) (op := callMv 1 1 (wrap 1 1 diag3) (3 * 1)) (which := .LM)
    ([dg 2], [(List.range (3 * 1)).map (fun j => if j = 2 then 1 else 0)]) (by
      refine ⟨rfl, rfl, ?_, ?_⟩
      · intro k lam X h1 h2
        cases k with
        | zero => cases h1; cases h2; exact pair_of_eig diag3_op (diag3_unit (by omega))
        | succ k => simp at h1
      · intro mu X h z hz
        rw [List.mem_singleton.mp hz]
        rcases diag3_mem h with e | e | e <;> rw [e] <;> norm_num [dg])
  obtain ⟨lam, X, x', e, hc, _⟩ := computeSym_run (k := 1) diag3_wf rfl exact_sound (x := ⟨3, fun _ _ => 0⟩) (le_refl 3) hr
  obtain ⟨_, he, hmax, _⟩ := C92_eigen (k := 1) diag3_wf rfl exact_sound rfl hc
  have := hmax rfl _ _ (diag3_unit (i := 2) (by omega))
  have hl := diag3_eig he
  refine ⟨x', ?_⟩
  rw [hc]
  rcases hl with e | e | e
  · rw [e] at this; norm_num [dg] at this
  · rw [e] at this; norm_num [dg] at this
  · rw [e]

/-- Non-vacuity: the condition number of it is computed (and wrong). -/
example : computeSymCond2 exact' 1 1 diag3 = .ok (3 / 2) := by
  obtain ⟨r, hr⟩ := exact_ok (n := 3 * 1) (nev := 2) (op := callMv 1 1 (wrap 1 1 diag3) (3 * 1)) (which := .BE)
    ([dg 0, dg 2], [(List.range (3 * 1)).map (fun j => if j = 0 then 1 else 0), (List.range (3 * 1)).map (fun j => if j = 2 then 1 else 0)]) (by
      refine ⟨rfl, rfl, ?_, ?_⟩
      · intro k lam X h1 h2
        match k with
        | 0 => cases h1; cases h2; exact pair_of_eig diag3_op (diag3_unit (by omega))
        | 1 => cases h1; cases h2; exact pair_of_eig diag3_op (diag3_unit (by omega))
        | k + 2 => simp at h1
      · intro mu X h lo hi hz
        injection hz with h1 h2
        injection h2 with h2 _
        rw [← h1, ← h2]
        rcases diag3_mem h with e | e | e <;> rw [e] <;> norm_num [dg])
  have hok : ∃ c, computeSymCond2 exact' 1 1 diag3 = .ok c := by
    obtain ⟨h1, h2, h3, h4⟩ := exact_sound _ _ _ _ _ hr
    obtain ⟨lo, hi, e1⟩ := getElem_two h1
    obtain ⟨X, Y, e2⟩ := getElem_two h2
    have p0 := h3 0 lo X (by rw [e1]; rfl) (by rw [e2]; rfl)
    have p1 := h3 1 hi Y (by rw [e1]; rfl) (by rw [e2]; rfl)
    rw [computeSymCond2]
    have hm : (wrap 1 1 diag3).m = 3 * 1 := rfl
    have hn : (wrap 1 1 diag3).n = 3 * 1 := rfl
    simp only [hm, hn, ne_eq, not_true_eq_false, if_false, hr, Res.ok_bind, e1, e2]
    simp only [rd, List.getElem?_cons_succ, List.getElem?_cons_zero, Res.ok_bind, p0.2.2, p1.2.2]
    exact ⟨_, rfl⟩
  obtain ⟨c, hc⟩ := hok
  rw [hc, (C92_cond_indefinite exact_sound hc).1]

theorem diag3_normal (f : Nat → ℝ) {i : Nat} (hi : i < 3) :
    tmulVec (3 * 1) (flat 1 1 diag3) (mulVec (3 * 1) (flat 1 1 diag3) f) i = dg i * (dg i * f i) := by
  rw [tmulVec]
  simp only [diag3_flat, ite_mul, zero_mul]
  rw [Finset.sum_ite_eq (Finset.range (3 * 1)) i (fun j => dg j * mulVec (3 * 1) (flat 1 1 diag3) f j),
    if_pos (Finset.mem_range.mpr (by omega)), diag3_mul f hi]

/-- Non-vacuity: the largest singular value of the matrix is found, and it is 3. -/
example : ∃ x', computeNonSym exact' .LA 1 1 diag3 ⟨3, fun _ _ => 0⟩ = .ok (3, x') := by
  have hop : Computes (3 * 1) (3 * 1) (callMtMv 1 1 (wrap 1 1 diag3) (3 * 1))
      (fun f => tmulVec (3 * 1) (flat 1 1 diag3) (mulVec (3 * 1) (flat 1 1 diag3) f)) := callMtMv_ok diag3_wf rfl
  have heig : ∀ mu f, IsEig (3 * 1) (fun f => tmulVec (3 * 1) (flat 1 1 diag3) (mulVec (3 * 1) (flat 1 1 diag3) f)) mu f → mu ≤ 9 := by
    intro mu f ⟨⟨i, hi, h0⟩, he⟩
    have h1 : tmulVec (3 * 1) (flat 1 1 diag3) (mulVec (3 * 1) (flat 1 1 diag3) f) i = mu * f i := he i hi
    rw [diag3_normal f (by omega), ← mul_assoc] at h1
    rw [← mul_right_cancel₀ h0 h1]
    have : i = 0 ∨ i = 1 ∨ i = 2 := by omega
    rcases this with e | e | e <;> rw [e] <;> norm_num [dg]
  have h9 : IsEig (3 * 1) (fun f => tmulVec (3 * 1) (flat 1 1 diag3) (mulVec (3 * 1) (flat 1 1 diag3) f)) 9 (fun j => if j = 2 then 1 else 0) := by
    refine ⟨⟨2, by omega, by simp⟩, fun j hj => ?_⟩
    show tmulVec (3 * 1) (flat 1 1 diag3) (mulVec (3 * 1) (flat 1 1 diag3) _) j = _
    rw [diag3_normal _ (by omega)]
    by_cases h : j = 2
    · rw [h]; norm_num [dg]
    · simp [h]
  obtain ⟨r, hr⟩ := exact_ok (n := 3 * 1) (nev := 1) (op := callMtMv 1 1 (wrap 1 1 diag3) (3 * 1)) (which := .LA)
    ([9], [(List.range (3 * 1)).map (fun j => if j = 2 then 1 else 0)]) (by
      refine ⟨rfl, rfl, ?_, ?_⟩
      · intro k lam X h1 h2
        cases k with
        | zero => cases h1; cases h2; exact pair_of_eig hop h9
        | succ k => simp at h1
      · intro mu X h z hz
        rw [List.mem_singleton.mp hz]
        have := vecIs_getD X
        rw [h.1] at this
        exact heig _ _ (eig_of_pair hop this h))
  obtain ⟨lam, X, x', e, hc, _⟩ := computeNonSym_run (p := 1) (q := 1) diag3_wf rfl (le_refl 1) exact_sound (x := ⟨3, fun _ _ => 0⟩) (le_refl 3) hr
  obtain ⟨_, _, h3, h4⟩ := exact_sound _ _ _ _ _ hr
  rw [e] at h3 h4
  have p0 := h3 0 lam X rfl rfl
  have hv := vecIs_getD X
  rw [p0.1] at hv
  have a := heig _ _ (eig_of_pair hop hv p0)
  have b := h4 9 _ (pair_of_eig hop h9) lam (by simp)
  have hl : lam = 9 := le_antisymm a b
  refine ⟨x', ?_⟩
  rw [hc, hl, show (9 : ℝ) = 3 ^ 2 by norm_num, Real.sqrt_sq (by norm_num)]

/-- Non-vacuity of `C92_wide_never`: one block row, two block columns. -/
example : ∃ A : SpMat Blk, A.WF ∧ A.n < A.m ∧ ∃ i, i < A.n ∧ ∃ e ∈ A.row i, A.n ≤ e.1 :=
  ⟨⟨1, 2, fun _ => [(1, 1)]⟩, by
    intro i _
    refine ⟨by simp [Row.Asc], ?_⟩
    intro e he
    have : e = (1, 1) := by simpa using he
    rw [this]; exact Nat.lt_succ_self 1, by decide, 0, by decide, (1, 1), by simp, le_refl 1⟩

end Arpack
end Istl
