import Verif.Lemmas.Cholmod3
import Mathlib.Tactic.NormNum
import Mathlib.Algebra.Order.Ring.Rat

/-! # C71: the Cholmod wrapper solves the system of the degrees of freedom that are not ignored -/

namespace Istl
open ForEach Ccs Cholmod Finset

variable {K : Type}

/-- The matrix handed to the library: for a square nested matrix with ascending patterns, an ignore field of the right size (or
none) that leaves something, and an object in whose index map nothing stale is left, the arrays form a valid packed sparse matrix
whose size is the number of degrees of freedom that take part, and whose entries are exactly the stored entries of the upper
triangle in the rows and columns that take part, transposed into the lower triangle and renumbered. No access is out of bounds. -/
theorem C71_matrix (v0 : Nat → K) (i0 : Nat → Nat) (o : Cholmod.Obj K) (A : NMat K) (n : Nat) (hA : Dim A n n) (hasc : Ascending A)
    (ign : Option (NVec Bool)) (hf : Fits ign n) (hex : ∃ r, Keeps ign n r) (hc : Clean o ign) :
    ∃ o' M, setMatrix v0 i0 o A ign = .ok o' ∧ o'.factor = some M ∧ o'.nIsZero = false ∧
      M.N = newIndex ign n n ∧ M.M = newIndex ign n n ∧
      (packed M).Represents (newIndex ign n n) (fun r c v => ∃ r' c', At A c' r' v ∧ c' ≤ r' ∧
        Keeps ign n r' ∧ Keeps ign n c' ∧ r = newIndex ign n r' ∧ c = newIndex ign n c') := by
  obtain ⟨M, ⟨h1, h2, h3⟩, h4⟩ := setMatrix_spec v0 i0 A n hA hasc ign hf (dofs_pos.mpr hex)
  exact ⟨_, M, h4 o hc, rfl, rfl, h1, h2, h3⟩

/-- `apply` after `setMatrix`: if the library can solve with the matrix it was given, then afterwards every row that takes part is
satisfied by the entries of `x` that take part, the coefficients being taken from the upper triangle; nothing but those entries of
`x` is changed, and the statistics say one iteration, converged. The values of `b` and of the ignored entries of `x` stay. -/
theorem C71_apply [CommRing K] (v0 : Nat → K) (i0 : Nat → Nat) (o : Cholmod.Obj K) (A : NMat K) (n : Nat) (hA : Dim A n n)
    (hasc : Ascending A) (ign : Option (NVec Bool)) (hf : Fits ign n) (hex : ∃ r, Keeps ign n r) (hc : Clean o ign)
    (solve : Ccs.Mat K → List K → List K) (o' : Cholmod.Obj K) (M : Ccs.Mat K) (hset : setMatrix v0 i0 o A ign = .ok o')
    (hM : o'.factor = some M) (hsol : Factorizes solve M) (a : Nat → Nat → K) (ha : IsValue A a)
    (x b : NVec Nat) (hx : x.leaves.length = n) (hb : b.leaves.length = n) (hxb : topLen x = topLen b) (hnd : x.leaves.Nodup)
    (mem : Nat → K) :
    ∃ out, apply 0 solve o' x b mem = .ok out ∧ out.stats = some (1, true) ∧
      (∀ q, (∀ r, Keeps ign n r → x.leaves[r]? ≠ some q) → out.mem q = mem q) ∧
      ∀ r, Keeps ign n r →
        ∑ c ∈ (range n).filter (Keeps ign n), (if r ≤ c then a r c else a c r) * out.mem (x.leaves.getD c 0) =
          mem (b.leaves.getD r 0) := by
  obtain ⟨M', ⟨h1, h2, h3⟩, h4⟩ := setMatrix_spec v0 i0 A n hA hasc ign hf (dofs_pos.mpr hex)
  rw [h4 o hc] at hset
  cases hset
  cases hM
  obtain ⟨bp, e1, hbl, hbp⟩ := putB_spec ign n mem 0 b hb
  obtain ⟨hxl, hsl⟩ := hsol bp (by rw [hbl, h1])
  obtain ⟨mem', e2, hm1, hm2⟩ := getX_spec ign n mem (solve M bp) (by rw [hxl, h1]) x hx hnd
  refine ⟨⟨mem', some (1, true)⟩, ?_, rfl, hm1, ?_⟩
  · unfold apply
    rw [if_neg (by simp), if_neg (by simpa using hxb)]
    simp only [h1, e1, Res.ok_bind, e2]
  · intro r hr
    have key := solves_spec A n hA ign a ha M h1 h3 (solve M bp) bp hsl r hr
    have hrb : r < b.leaves.length := by rw [hb]; exact hr.lt
    rw [List.getD_eq_getElem?_getD (l := bp), hbp r _ hr (List.getElem?_eq_getElem hrb)] at key
    rw [List.getD_eq_getElem?_getD (l := b.leaves), List.getElem?_eq_getElem hrb]
    refine Eq.trans (Finset.sum_congr rfl ?_) key
    intro c hcm
    rw [Finset.mem_filter] at hcm
    have hcx : c < x.leaves.length := by rw [hx]; exact hcm.2.lt
    congr 1
    rw [List.getD_eq_getElem?_getD, List.getElem?_eq_getElem hcx, List.getD_eq_getElem?_getD,
      hm2 c _ hcm.2 (List.getElem?_eq_getElem hcx)]
    rfl

/-- For a symmetric matrix and a new object: `x` restricted to the degrees of freedom that take part solves the system restricted
to them. -/
theorem C71_solution [CommRing K] (v0 : Nat → K) (i0 : Nat → Nat) (A : NMat K) (n : Nat) (hA : Dim A n n)
    (hasc : Ascending A) (ign : Option (NVec Bool)) (hf : Fits ign n) (hex : ∃ r, Keeps ign n r)
    (solve : Ccs.Mat K → List K → List K) (o' : Cholmod.Obj K) (M : Ccs.Mat K) (hset : setMatrix v0 i0 fresh A ign = .ok o')
    (hM : o'.factor = some M) (hsol : Factorizes solve M) (a : Nat → Nat → K) (ha : IsValue A a) (hsym : ∀ r c, a r c = a c r)
    (x b : NVec Nat) (hx : x.leaves.length = n) (hb : b.leaves.length = n) (hxb : topLen x = topLen b) (hnd : x.leaves.Nodup)
    (mem : Nat → K) :
    ∃ out, apply 0 solve o' x b mem = .ok out ∧
      ∀ r, Keeps ign n r →
        ∑ c ∈ (range n).filter (Keeps ign n), a r c * out.mem (x.leaves.getD c 0) = mem (b.leaves.getD r 0) := by
  obtain ⟨out, h1, _, _, h4⟩ := C71_apply v0 i0 fresh A n hA hasc ign hf hex (clean_fresh ign) solve o' M hset hM hsol a ha
    x b hx hb hxb hnd mem
  refine ⟨out, h1, ?_⟩
  intro r hr
  rw [← h4 r hr]
  refine Finset.sum_congr rfl ?_
  intro c _
  split
  · rfl
  · rw [hsym r c]

/-- If every degree of freedom is ignored (or there is none), `setMatrix` succeeds without a factorization, and `apply` does
nothing at all, whatever vectors it is given: not even the statistics are written. -/
theorem C71_nothing_left (v0 : Nat → K) (i0 : Nat → Nat) (o : Cholmod.Obj K) (A : NMat K) (n : Nat) (hA : Dim A n n)
    (ign : Option (NVec Bool)) (hf : Fits ign n) (hex : ∀ r, ¬ Keeps ign n r) :
    ∃ o', setMatrix v0 i0 o A ign = .ok o' ∧ o'.factor = o.factor ∧ o'.live = o.live ∧
      ∀ zero solve x b mem, apply zero solve o' x b mem = .ok ⟨mem, none⟩ := by
  refine ⟨_, setMatrix_zero v0 i0 o A n hA ign hf (fun h => ?_), rfl, rfl, ?_⟩
  · obtain ⟨r, hr⟩ := dofs_pos.mp h
    exact hex r hr
  · intro zero solve x b mem
    unfold apply
    rw [if_pos rfl]

/-- Vectors with different numbers of blocks are refused with an exception before anything is changed (unless nothing is left to
solve). -/
theorem C71_size (zero : K) (solve : Ccs.Mat K → List K → List K) (o : Cholmod.Obj K) (x b : NVec Nat) (mem : Nat → K)
    (hz : o.nIsZero = false) (h : topLen x ≠ topLen b) : apply zero solve o x b mem = .throw .exception := by
  unfold apply
  rw [if_neg (by simp [hz]), if_pos h]

/-- Histories with one ignore field: after any number of `setMatrix` calls on matrices of the same size, all with the same ignore
field, the object behaves like a new one on which only the last call was made. The factors of all calls but the last stay
allocated even after the destructor ran (nothing is leaked if nothing was left to solve). -/
theorem C71_history (v0 : Nat → K) (i0 : Nat → Nat) (n : Nat) (ign : Option (NVec Bool)) (hf : Fits ign n) (As : List (NMat K))
    (A : NMat K) (h : ∀ B ∈ As ++ [A], Dim B n n ∧ Ascending B) :
    ∃ o o₁, (As ++ [A]).foldlM (fun o B => setMatrix v0 i0 o B ign) fresh = .ok o ∧ setMatrix v0 i0 fresh A ign = .ok o₁ ∧
      o.factor = o₁.factor ∧ o.nIsZero = o₁.nIsZero ∧ o.sub = o₁.sub ∧
      destroy o₁ = 0 ∧ ((∃ r, Keeps ign n r) → destroy o = As.length) ∧
      ((∀ r, ¬ Keeps ign n r) → destroy o = 0) := by
  have hA := h A (by simp)
  by_cases hpos : 0 < dofs ign n
  · have key : ∀ (L : List (NMat K)), (∀ B ∈ L, Dim B n n ∧ Ascending B) →
        ∃ o : Cholmod.Obj K, L.foldlM (fun o B => setMatrix v0 i0 o B ign) fresh = .ok o ∧ Clean o ign ∧ o.live = L.length := by
      intro L
      induction L using List.reverseRecOn with
      | nil => intro _; exact ⟨fresh, rfl, clean_fresh ign, rfl⟩
      | append_singleton L B ih =>
        intro hL
        obtain ⟨o, e, hc, hl⟩ := ih (fun C hC => hL C (by simp [hC]))
        obtain ⟨hB1, hB2⟩ := hL B (by simp)
        obtain ⟨M, _, hM⟩ := setMatrix_spec v0 i0 B n hB1 hB2 ign hf hpos
        refine ⟨_, ?_, clean_subOf (some M) false ign n (o.live + 1), by simp [hl]⟩
        rw [List.foldlM_append, e]
        simp only [Res.ok_bind, List.foldlM_cons, List.foldlM_nil, hM o hc, Res.pure_eq]
    obtain ⟨o, e, hc, hl⟩ := key As (fun B hB => h B (by simp [hB]))
    obtain ⟨M, _, hM⟩ := setMatrix_spec v0 i0 A n hA.1 hA.2 ign hf hpos
    refine ⟨⟨some M, false, subOf ign n, o.live + 1⟩, _, ?_, hM fresh (clean_fresh ign), ?_⟩
    · rw [List.foldlM_append, e]
      simp only [Res.ok_bind, List.foldlM_cons, List.foldlM_nil, hM o hc, Res.pure_eq]
    · refine ⟨rfl, rfl, rfl, rfl, fun _ => by simp [destroy, hl], fun hh => ?_⟩
      obtain ⟨r, hr⟩ := dofs_pos.mp hpos
      exact absurd hr (hh r)
  · have key : ∀ (L : List (NMat K)), (∀ B ∈ L, Dim B n n ∧ Ascending B) →
        ∃ o : Cholmod.Obj K, L.foldlM (fun o B => setMatrix v0 i0 o B ign) fresh = .ok o ∧ o.factor = none ∧ o.sub = [] ∧ o.live = 0 := by
      intro L
      induction L using List.reverseRecOn with
      | nil => intro _; exact ⟨fresh, rfl, rfl, rfl, rfl⟩
      | append_singleton L B ih =>
        intro hL
        obtain ⟨o, e, hc, hs, hl⟩ := ih (fun C hC => hL C (by simp [hC]))
        refine ⟨{ o with nIsZero := true }, ?_, hc, hs, hl⟩
        rw [List.foldlM_append, e]
        simp only [Res.ok_bind, List.foldlM_cons, List.foldlM_nil, setMatrix_zero v0 i0 o B n (hL B (by simp)).1 ign hf hpos,
          Res.pure_eq]
    obtain ⟨o, e, hc, hs, hl⟩ := key As (fun B hB => h B (by simp [hB]))
    refine ⟨{ o with nIsZero := true }, { fresh with nIsZero := true }, ?_, setMatrix_zero v0 i0 fresh A n hA.1 ign hf hpos, ?_⟩
    · rw [List.foldlM_append, e]
      simp only [Res.ok_bind, List.foldlM_cons, List.foldlM_nil, setMatrix_zero v0 i0 o A n hA.1 ign hf hpos, Res.pure_eq]
    · exact ⟨hc, rfl, hs, rfl, fun hh => absurd (dofs_pos.mpr hh) hpos, fun _ => by simp [destroy, hc, hl]⟩

/-- A diagonal matrix, for the examples below. -/
def cholDiag (d : Nat → ℚ) : NMat ℚ := .sparse 2 2 (fun i => [i]) (fun i _ => .scalar (d i)) (.scalar 0)

/-- Two scalars at the given addresses. -/
def cholVec (a b : Nat) : NVec Nat := .node 2 fun i => .scalar (if i = 0 then a else b)

/-- An ignore field on two degrees of freedom. -/
def cholIgn (a b : Bool) : NVec Bool := .node 2 fun i => .scalar (if i = 0 then a else b)

/-- Reusing an object without an ignore field after one with an ignore field: the old index map is still in use. The first row of
the new matrix, `2 x₀ = 2`, is not satisfied whatever the library answers, since `x₀` is never written. -/
theorem C71_stale_map_counterexample (solve : Ccs.Mat ℚ → List ℚ → List ℚ) (hlen : ∀ M b, (solve M b).length = b.length) :
    ∃ o₁ o₂ out, setMatrix (fun _ => 0) (fun _ => 0) fresh (cholDiag fun _ => 1) (some (cholIgn true false)) = .ok o₁ ∧
      setMatrix (fun _ => 0) (fun _ => 0) o₁ (cholDiag fun _ => 2) none = .ok o₂ ∧
      apply 0 solve o₂ (cholVec 0 1) (cholVec 2 3) (fun q => if q < 2 then 0 else 2) = .ok out ∧
      2 * out.mem 0 ≠ (2 : ℚ) := by
  obtain ⟨o₁, h1⟩ : ∃ o₁ : Cholmod.Obj ℚ, o₁ = ⟨some ⟨1, 1, 2, [1, 0], [0, 0], [0, 1]⟩, false, [none, some 0], 1⟩ := ⟨_, rfl⟩
  obtain ⟨o₂, h2⟩ : ∃ o₂ : Cholmod.Obj ℚ, o₂ = ⟨some ⟨2, 2, 2, [2, 2], [0, 1], [0, 1, 2]⟩, false, [none, some 0], 2⟩ := ⟨_, rfl⟩
  have hl := hlen ⟨2, 2, 2, [2, 2], [0, 1], [0, 1, 2]⟩ [2, 0]
  obtain ⟨p, q, hpq⟩ : ∃ p q, solve ⟨2, 2, 2, [2, 2], [0, 1], [0, 1, 2]⟩ [2, 0] = [p, q] := by
    generalize solve ⟨2, 2, 2, [2, 2], [0, 1], [0, 1, 2]⟩ [2, 0] = l at hl
    match l, hl with
    | [p, q], _ => exact ⟨p, q, rfl⟩
  refine ⟨o₁, o₂, ⟨fun r => if r = 1 then p else if r < 2 then 0 else 2, some (1, true)⟩, ?_, ?_, ?_, ?_⟩
  · subst h1; rfl
  · subst h1 h2; rfl
  · subst h2
    have e1 : (flatVector (putB [none, some 0] fun q => if q < 2 then (0 : ℚ) else 2) (cholVec 2 3) 0
        (.ok (List.replicate 2 0))).1 = .ok [2, 0] := by rfl
    unfold apply
    rw [if_neg (by simp), if_neg (by simp [cholVec, topLen])]
    simp only [e1, Res.ok_bind, hpq]
    rfl
  · norm_num

/-- Changing the ignore field: the identity matrix, first with the first and then with the second degree of freedom ignored. The
right hand side of the kept row is overwritten by that of the ignored one, and the ignored entry of the solution is changed:
`b = (1, 5)` gives `x = (5, 5)`, instead of `x₀ = 1` and `x₁` as before. -/
theorem C71_new_field_counterexample (solve : Ccs.Mat ℚ → List ℚ → List ℚ) (hid : ∀ M v, solve M [v] = [v]) :
    ∃ o₁ o₂ out, setMatrix (fun _ => 0) (fun _ => 0) fresh (cholDiag fun _ => 1) (some (cholIgn true false)) = .ok o₁ ∧
      setMatrix (fun _ => 0) (fun _ => 0) o₁ (cholDiag fun _ => 1) (some (cholIgn false true)) = .ok o₂ ∧
      apply 0 solve o₂ (cholVec 0 1) (cholVec 2 3) (fun q => if q < 2 then 7 else if q = 2 then 1 else 5) = .ok out ∧
      out.mem 0 = 5 ∧ out.mem 1 = 5 := by
  obtain ⟨o₁, h1⟩ : ∃ o₁ : Cholmod.Obj ℚ, o₁ = ⟨some ⟨1, 1, 2, [1, 0], [0, 0], [0, 1]⟩, false, [none, some 0], 1⟩ := ⟨_, rfl⟩
  obtain ⟨o₂, h2⟩ : ∃ o₂ : Cholmod.Obj ℚ, o₂ = ⟨some ⟨1, 1, 2, [1, 0], [0, 0], [0, 1]⟩, false, [some 0, some 0], 2⟩ := ⟨_, rfl⟩
  have e1 : (flatVector (putB [some 0, some 0] fun q => if q < 2 then (7 : ℚ) else if q = 2 then 1 else 5) (cholVec 2 3) 0
        (.ok (List.replicate 1 0))).1 = .ok [5] := by rfl
  refine ⟨o₁, o₂, ⟨fun q => if q = 1 then 5 else if q = 0 then 5 else if q < 2 then 7 else if q = 2 then 1 else 5,
    some (1, true)⟩, ?_, ?_, ?_, rfl, rfl⟩
  · subst h1; rfl
  · subst h1 h2; rfl
  · subst h2
    unfold apply
    rw [if_neg (by simp), if_neg (by simp [cholVec, topLen])]
    simp only [e1, Res.ok_bind, hid]
    rfl

/-- Non-vacuity: a symmetric 3×3 matrix whose middle degree of freedom is ignored; only the lower triangle is stored, and the room
for five entries is not used up. -/
example : setMatrix (fun _ => 0) (fun _ => 0) fresh
    (NMat.sparse 3 3 (fun i => if i = 0 then [0, 1, 2] else if i = 1 then [0, 1] else [0, 2])
      (fun i j => .scalar (10 * min i j + max i j)) (.scalar 0)) (some (.node 3 fun i => .scalar (decide (i = 1)))) =
    .ok ⟨some ⟨2, 2, 5, [0, 2, 22, 0, 0], [0, 1, 1, 0, 0], [0, 2, 3]⟩, false, [some 0, none, some 1], 1⟩ := by rfl

/-- Non-vacuity: the hypotheses of `C71_solution` for that pattern. -/
example : ∃ A : NMat ℚ, Dim A 2 2 ∧ Ascending A ∧ Fits (some (cholIgn true false)) 2 ∧ (∃ r, Keeps (some (cholIgn true false)) 2 r) ∧
    IsValue A (fun i j => if i = j ∧ i < 2 then 3 else 0) :=
  ⟨cholDiag fun _ => 3, by
    exact Dim.sparse 2 2 _ _ _ 1 1 (by decide) (by decide) (fun i hi => by simpa using hi) (fun _ _ _ _ => Dim.scalar _)
      (fun _ => Dim.scalar _), by
    exact Ascending.sparse 2 2 _ _ _ (by simp) (fun _ _ _ _ => Ascending.scalar _), by
    intro v hv; cases hv; rfl, ⟨1, by decide, by rfl⟩, by
    intro r c
    constructor
    · intro v hv
      cases hv with
      | sparse _ _ _ _ _ br bc i j r c _ hi hj hd hs =>
        cases hd
        cases hs
        simp only [List.mem_singleton] at hj
        subst hj
        simp; omega
    · intro hv
      refine if_neg ?_
      rintro ⟨rfl, hr⟩
      have := At.sparse 2 2 (fun i => [i]) (fun i _ => NMat.scalar (3 : ℚ)) (.scalar 0) 1 1 r r 0 0 3 hr (by simp) (Dim.scalar _)
        (At.scalar _)
      simp only [Nat.mul_one, Nat.add_zero] at this
      exact hv _ this⟩

end Istl
