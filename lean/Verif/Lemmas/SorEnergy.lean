import Mathlib.Tactic.NoncommRing
import Mathlib.Tactic.Linarith
import Verif.Spec.Energy
import Verif.Props.C26
import Verif.Lemmas.AmgSpd

/-! Relaxation sweeps for symmetric matrices: adjoint operators and energy. -/

namespace Istl
open Gsetc SpMat
variable {K V R : Type}

section dot
variable [CommRing K] [AddCommGroup V] [Module K V] {B : V → V → K}

theorem blockDot_scalarProd (hB : ScalarProd B) (n : Nat) : ScalarProd (blockDot B n) where
  symm x y := Finset.sum_congr rfl fun i _ => hB.symm _ _
  add x y z := by simp [blockDot, hB.add, Finset.sum_add_distrib]
  smul c x z := by simp [blockDot, hB.smul, Finset.mul_sum]

theorem blockDot_single (hB : ScalarProd B) {n i : Nat} (hi : i < n) (y : Nat → V) (u : V) :
    blockDot B n y (Pi.single i u) = B (y i) u := by
  unfold blockDot
  rw [Finset.sum_eq_single i]
  · simp
  · intro j _ hj
    rw [Pi.single_eq_of_ne hj, hB.symm, hB.zero]
  · intro h; exact absurd (Finset.mem_range.2 hi) h

theorem blockDot_congr {n : Nat} {x x' y y' : Nat → V} (hx : ∀ i, i < n → x i = x' i) (hy : ∀ i, i < n → y i = y' i) :
    blockDot B n x y = blockDot B n x' y' :=
  Finset.sum_congr rfl fun i hi => by rw [hx i (Finset.mem_range.1 hi), hy i (Finset.mem_range.1 hi)]

theorem apply_add (act : R → V →+ V) (A : SpMat R) (x y : Nat → V) : A.apply act (x + y) = A.apply act x + A.apply act y := by
  funext i
  simp [SpMat.apply, SpMat.partSum, List.sum_map_add]

theorem apply_smul (act : R → V →+ V) (hact : ∀ a (c : K) x, act a (c • x) = c • act a x) (A : SpMat R) (c : K) (x : Nat → V) :
    A.apply act (c • x) = c • A.apply act x := by
  funext i
  simp [SpMat.apply, SpMat.partSum, hact]
  induction A.row i with
  | nil => simp
  | cons e r ih => simp [ih]

theorem upd_eq_single (x : Nat → V) (i : Nat) (u : V) : upd x i (x i + u) = x + Pi.single i u := by
  funext k
  by_cases h : k = i
  · subst h; simp
  · simp [upd_ne _ _ h, h]

theorem apply_single (act : R → V →+ V) (A : SpMat R) {i : Nat} (hS : (A.row i).Asc) {a : R} (ha : (A.row i).Stores i a) (u : V) :
    A.apply act (Pi.single i u) i = act a u := by
  have z : ∀ (P : Nat → Prop) [DecidablePred P], (∀ j, P j → j ≠ i) → A.partSum act P (Pi.single i u) i = 0 := by
    intro P _ hP
    unfold SpMat.partSum
    apply List.sum_eq_zero
    intro y hy
    obtain ⟨e, he, rfl⟩ := List.mem_map.1 hy
    have := hP e.1 (by simpa using (List.mem_filter.1 he).2)
    rw [Pi.single_eq_of_ne this, map_zero]
  rw [apply_split act A hS ha, z _ (fun j h => by omega), z _ (fun j h => by omega)]
  simp

end dot

section functional
variable [Field K] [LinearOrder K] [IsStrictOrderedRing K] [AddCommGroup V] [Module K V] {B : V → V → K}

/-- One row of a relaxation sweep lowers the functional by `w (2 - w) v^T D v`. -/
theorem functional_row (hB : ScalarProd B) (β : BlockSolve R V V) (hβ : ∀ a (c : K) x, β.act a (c • x) = c • β.act a x) (A : SpMat R)
    (hA : A.Symmetric B β.act) {i : Nat} (hi : i < A.n) (hS : (A.row i).Asc) {a : R} (ha : (A.row i).Stores i a) (w : K) (b x : Nat → V)
    (v : V) (hv : β.act a v = b i - A.apply β.act x i) :
    A.functional B β.act b (x + Pi.single i (w • v)) = A.functional B β.act b x - w * (2 - w) * B (β.act a v) v := by
  have hD := blockDot_scalarProd hB A.n
  unfold SpMat.functional
  rw [apply_add, hD.add, hD.add', hD.add', hD.add', hA (Pi.single i (w • v)) x, hD.symm (Pi.single i (w • v)) (A.apply β.act x),
    blockDot_single hB hi, blockDot_single hB hi, blockDot_single hB hi, apply_single β.act A hS ha, hβ, hB.smul, hB.smul', hB.smul',
    hB.smul']
  have : A.apply β.act x i = b i - β.act a v := by rw [hv]; abel
  rw [this, hB.sub]
  ring

theorem diag_pos (hB : ScalarProd B) (act : R → V →+ V) (A : SpMat R) (hP : A.PosDef B act) {i : Nat} (hi : i < A.n)
    (hS : (A.row i).Asc) {a : R} (ha : (A.row i).Stores i a) (v : V) (hv : v ≠ 0) : 0 < B (act a v) v := by
  have := hP (Pi.single i v) ⟨i, hi, by simpa using hv⟩
  rwa [blockDot_single hB hi, apply_single act A hS ha] at this

/-- Sweeps over any list of rows never raise the functional; if it stays, the vector stays and its residual vanishes in the rows visited. -/
theorem functional_list (hB : ScalarProd B) (β : BlockSolve R V V) (hβ : ∀ a (c : K) x, β.act a (c • x) = c • β.act a x) (A : SpMat R)
    (hS : A.Sorted) (hG : A.HasDiag) (hA : A.Symmetric B β.act) (hP : A.PosDef B β.act) (w : K) (h0 : 0 < w) (h2 : w < 2) (b : Nat → V) :
    ∀ (l : List Nat), (∀ i ∈ l, i < A.n) → ∀ s s' : (Nat → V) × V,
      l.foldlM (fun s i => sorRow β.act (solveLoc β) w A b i s) s = .ok s' →
      A.functional B β.act b s'.1 ≤ A.functional B β.act b s.1 ∧
      (A.functional B β.act b s'.1 = A.functional B β.act b s.1 → s'.1 = s.1 ∧ ∀ i ∈ l, A.apply β.act s.1 i = b i) := by
  intro l
  induction l with
  | nil =>
    intro _ s s' h
    obtain rfl : s = s' := by injection h
    exact ⟨le_refl _, fun _ => ⟨rfl, fun i hi => by cases hi⟩⟩
  | cons i l ih =>
    intro hl s s' h
    rw [List.foldlM_cons, Res.bind_eq_ok] at h
    obtain ⟨t, h1, h2'⟩ := h
    have hi := hl i (List.mem_cons_self ..)
    obtain ⟨a, ha⟩ := hG i hi
    rw [sorRow_ok β.act _ w A b (hS i hi) ha, Res.bind_eq_ok] at h1
    obtain ⟨v, hv, ht⟩ := h1
    injection ht with ht
    have hv := solveLoc_ok β hv
    have e := functional_row hB β hβ A hA hi (hS i hi) ha w b s.1 v hv
    rw [← upd_eq_single] at e
    have et : t.1 = upd s.1 i (s.1 i + w • v) := by rw [← ht]
    rw [← et] at e
    obtain ⟨i1, i2⟩ := ih (fun j hj => hl j (List.mem_cons_of_mem _ hj)) t s' h2'
    have hp := diag_pos hB β.act A hP hi (hS i hi) ha v
    have hw : 0 < w * (2 - w) := mul_pos h0 (by linarith)
    by_cases v0 : v = 0
    · subst v0
      rw [map_zero, hB.zero, mul_zero, sub_zero] at e
      have ts : t.1 = s.1 := by rw [et, upd_eq_single]; simp
      have hr : A.apply β.act s.1 i = b i := by
        rw [map_zero] at hv; exact (sub_eq_zero.1 hv.symm).symm
      rw [ts] at i1 i2
      refine ⟨i1, fun h => ?_⟩
      obtain ⟨j1, j2⟩ := i2 h
      refine ⟨j1, fun j hj => ?_⟩
      rcases List.mem_cons.1 hj with rfl | hj
      · exact hr
      · exact j2 j hj
    · have := mul_pos hw (hp v0)
      exact ⟨by linarith, fun h => by linarith⟩

end functional

section operator
variable [CommRing K] [AddCommGroup V] [Module K V]

/-- The matrix as a linear map; components outside the matrix become zero. -/
noncomputable def matOp (act : R → V →+ V) (hact : ∀ a (c : K) x, act a (c • x) = c • act a x) (A : SpMat R) : Module.End K (Nat → V) where
  toFun x := fun i => if i < A.n then A.apply act x i else 0
  map_add' x y := by
    funext i
    by_cases h : i < A.n
    · simp [h, apply_add]
    · simp [h]
  map_smul' c x := by
    funext i
    by_cases h : i < A.n
    · simp [h, apply_smul act hact]
    · simp [h]

/-- The inverse of an invertible block. -/
noncomputable def blockInv (β : BlockSolve R V V) (a : R) (ha : Function.Bijective (β.act a)) : V → V := Function.surjInv ha.surjective

theorem act_blockInv (β : BlockSolve R V V) (a : R) (ha : Function.Bijective (β.act a)) (y : V) : β.act a (blockInv β a ha y) = y :=
  Function.surjInv_eq ha.surjective y

/-- The correction of one row: `w D_i^{-1} d_i` in component `i`. -/
noncomputable def rowOp (β : BlockSolve R V V) (hβ : ∀ a (c : K) x, β.act a (c • x) = c • β.act a x) (w : K) (a : R)
    (ha : Function.Bijective (β.act a)) (i : Nat) : Module.End K (Nat → V) where
  toFun d := Pi.single i (w • blockInv β a ha (d i))
  map_add' x y := by
    rw [← Pi.single_add, ← smul_add]
    congr 2
    apply ha.1
    rw [map_add, act_blockInv, act_blockInv, act_blockInv]
    rfl
  map_smul' c x := by
    rw [RingHom.id_apply, ← Pi.single_smul, smul_comm]
    congr 2
    apply ha.1
    rw [hβ, act_blockInv, act_blockInv]
    rfl

/-- A sweep over a list of rows as an operator on the residual. -/
def sweepOp (A : Module.End K (Nat → V)) (N : Nat → Module.End K (Nat → V)) : List Nat → Module.End K (Nat → V)
  | [] => 0
  | i :: l => N i + sweepOp A N l * (1 - A * N i)

theorem sweepOp_append (A : Module.End K (Nat → V)) (N : Nat → Module.End K (Nat → V)) (l m : List Nat) :
    sweepOp A N (l ++ m) = sweepOp A N l + sweepOp A N m * (1 - A * sweepOp A N l) := by
  induction l with
  | nil => simp [sweepOp]
  | cons i l ih => simp only [List.cons_append, sweepOp, ih, mul_sub, sub_mul, mul_add, add_mul, mul_one, one_mul, mul_assoc]; abel

theorem sweepOp_adj {B : (Nat → V) → (Nat → V) → K} (hB : ScalarProd B) (A : Module.End K (Nat → V)) (N : Nat → Module.End K (Nat → V))
    (hA : Adjoint B A A) (l : List Nat) (hN : ∀ i ∈ l, Adjoint B (N i) (N i)) :
    Adjoint B (sweepOp A N l) (sweepOp A N l.reverse) := by
  induction l with
  | nil => exact Adjoint.zero hB
  | cons i l ih =>
    have ih := ih fun j hj => hN j (List.mem_cons_of_mem _ hj)
    have h := hN i (List.mem_cons_self ..)
    rw [List.reverse_cons, sweepOp_append]
    refine (Adjoint.add hB h (ih.mul (Adjoint.sub hB Adjoint.one (hA.mul h)))).congr ?_
    simp only [sweepOp, mul_sub, sub_mul, mul_add, add_mul, mul_one, one_mul, mul_assoc, zero_mul, add_zero]
    abel

/-- A sweep over a list of rows adds the sweep operator applied to the residual. -/
theorem sweep_list (β : BlockSolve R V V) (hβ : ∀ a (c : K) x, β.act a (c • x) = c • β.act a x) (A : SpMat R) (hS : A.Sorted) (w : K)
    (N : Nat → Module.End K (Nat → V))
    (hN : ∀ i, i < A.n → ∃ a, (A.row i).Stores i a ∧ ∃ h, N i = rowOp β hβ w a h i) (b : Nat → V) :
    ∀ (l : List Nat), (∀ i ∈ l, i < A.n) → ∀ (x : Nat → V) (v : V),
      ∃ v', l.foldlM (fun s i => sorRow β.act (solveLoc β) w A b i s) (x, v) =
        Res.ok (x + sweepOp (matOp β.act hβ A) N l ((fun i => if i < A.n then b i else 0) - matOp β.act hβ A x), v') := by
  intro l
  induction l with
  | nil => intro _ x v; exact ⟨v, by simp [sweepOp]⟩
  | cons i l ih =>
    intro hl x v
    have hi := hl i (List.mem_cons_self ..)
    obtain ⟨a, ha, hb, hNi⟩ := hN i hi
    set r : Nat → V := (fun i => if i < A.n then b i else 0) - matOp β.act hβ A x with hr
    have ri : r i = b i - A.apply β.act x i := by simp [hr, matOp, hi]
    set u := blockInv β a hb (r i) with hu
    have su : solveLoc β a v (b i - A.apply β.act x i) = .ok u := by
      unfold solveLoc
      rw [(β.solve_iff a _ u).2 ⟨hb, by rw [hu, act_blockInv, ri]⟩]
    have row : sorRow β.act (solveLoc β) w A b i (x, v) = .ok (x + N i r, u) := by
      rw [sorRow_ok β.act _ w A b (hS i hi) ha, su, Res.ok_bind, upd_eq_single, hNi]
      rfl
    obtain ⟨v', h'⟩ := ih (fun j hj => hl j (List.mem_cons_of_mem _ hj)) (x + N i r) u
    refine ⟨v', ?_⟩
    rw [List.foldlM_cons, row, Res.ok_bind, h', sweepOp]
    congr 2
    simp only [LinearMap.add_apply, Module.End.mul_apply, LinearMap.sub_apply, Module.End.one_apply, map_add, map_sub, hr]
    abel

theorem rowOp_symm {B : V → V → K} (hB : ScalarProd B) (β : BlockSolve R V V) (hβ : ∀ a (c : K) x, β.act a (c • x) = c • β.act a x)
    (A : SpMat R) (hA : A.Symmetric B β.act) {i : Nat} (hi : i < A.n) (hS : (A.row i).Asc) (w : K) {a : R} (ha : (A.row i).Stores i a)
    (hb : Function.Bijective (β.act a)) : Adjoint (blockDot B A.n) (rowOp β hβ w a hb i) (rowOp β hβ w a hb i) := by
  have hD := blockDot_scalarProd hB A.n
  have sy : ∀ u v, B (β.act a u) v = B u (β.act a v) := by
    intro u v
    have := hA (Pi.single i u) (Pi.single i v)
    rwa [blockDot_single hB hi, apply_single β.act A hS ha, hD.symm, blockDot_single hB hi, apply_single β.act A hS ha, hB.symm _ u] at this
  intro x y
  change blockDot B A.n (Pi.single i (w • blockInv β a hb (x i))) y = blockDot B A.n x (Pi.single i (w • blockInv β a hb (y i)))
  rw [hD.symm, blockDot_single hB hi, blockDot_single hB hi, hB.smul', hB.smul']
  congr 1
  conv_lhs => rw [← act_blockInv β a hb (y i)]
  conv_rhs => rw [← act_blockInv β a hb (x i)]
  rw [sy, hB.symm, sy, hB.symm]

theorem matOp_symm {B : V → V → K} (act : R → V →+ V) (hact : ∀ a (c : K) x, act a (c • x) = c • act a x) (A : SpMat R)
    (hA : A.Symmetric B act) : Adjoint (blockDot B A.n) (matOp act hact A) (matOp act hact A) := by
  intro x y
  have := hA x y
  rw [blockDot_congr (x' := matOp act hact A x) (y' := y) (fun i hi => by simp [matOp, hi]) (fun _ _ => rfl)] at this
  rw [this]
  exact blockDot_congr (fun _ _ => rfl) (fun i hi => by simp [matOp, hi])

end operator
end Istl

namespace Istl
open Gsetc SpMat Prec
variable {K V R : Type}

section ops
variable [CommRing K] [AddCommGroup V] [Module K V]

/-- the components of the matrix size -/
def cut (n : Nat) (b : Nat → V) : Nat → V := fun i => if i < n then b i else 0

theorem cut_lin (n : Nat) (c : K) (b d : Nat → V) : cut n (c • b + d) = c • cut n b + cut n d := by
  funext i
  by_cases h : i < n <;> simp [cut, h]

/-- The restriction to the first `n` components. -/
def cutOp (K : Type) [CommRing K] [Module K V] (n : Nat) : Module.End K (Nat → V) where
  toFun := cut n
  map_add' x y := by funext i; by_cases h : i < n <;> simp [cut, h]
  map_smul' c x := by funext i; by_cases h : i < n <;> simp [cut, h]

theorem cutOp_symm {B : V → V → K} (n : Nat) : Adjoint (blockDot B n) (cutOp K n) (cutOp K n) := fun x y =>
  blockDot_congr (fun i hi => by simp [cutOp, cut, hi]) (fun i hi => by simp [cutOp, cut, hi])

/-- Forward and backward sweep as operators, transposes of each other for a symmetric matrix. -/
theorem sweep_ops (β : BlockSolve R V V) (hβ : ∀ a (c : K) x, β.act a (c • x) = c • β.act a x) (A : SpMat R) (hS : A.Sorted)
    (hD : A.HasDiag) (hI : A.DiagInvertible β.act) (w : K) :
    ∃ F G J : Module.End K (Nat → V),
      (∀ b x, bsorf β.act (solveLoc β) w A b x = .ok (x + F (cut A.n b - matOp β.act hβ A x))) ∧
      (∀ b x, bsorb β.act (solveLoc β) w A b x = .ok (x + G (cut A.n b - matOp β.act hβ A x))) ∧
      (∀ b x, dbjac β.act (solveLoc β) w A b x = .ok (x + J (cut A.n b - matOp β.act hβ A x))) ∧
      (∀ d, ∀ i, A.n ≤ i → F d i = 0 ∧ G d i = 0 ∧ J d i = 0) ∧
      (∀ B : V → V → K, ScalarProd B → A.Symmetric B β.act →
        Adjoint (blockDot B A.n) F G ∧ Adjoint (blockDot B A.n) J J) := by
  classical
  choose D hD' using hD
  have hb := fun i (hi : i < A.n) => hI i hi (D i hi) (hD' i hi)
  let N : Nat → Module.End K (Nat → V) := fun i => if h : i < A.n then rowOp β hβ w (D i h) (hb i h) i else 0
  have hN : ∀ i, i < A.n → ∃ a, (A.row i).Stores i a ∧ ∃ h, N i = rowOp β hβ w a h i := fun i hi =>
    ⟨D i hi, hD' i hi, hb i hi, dif_pos hi⟩
  let J : Module.End K (Nat → V) := ∑ i ∈ Finset.range A.n, N i
  have hNi : ∀ i d k, k ≠ i → N i d k = 0 := by
    intro i d k hk
    by_cases hi : i < A.n
    · simp only [N, dif_pos hi, rowOp]
      exact Pi.single_eq_of_ne hk _
    · simp [N, hi]
  have Jk : ∀ d k, J d k = if k < A.n then N k d k else 0 := by
    intro d k
    simp only [J, LinearMap.sum_apply, Finset.sum_apply]
    by_cases hk : k < A.n
    · rw [if_pos hk, Finset.sum_eq_single k]
      · intro j _ hj; exact hNi j d k (fun h => hj h.symm)
      · intro h; exact absurd (Finset.mem_range.2 hk) h
    · rw [if_neg hk]
      exact Finset.sum_eq_zero fun j hj => hNi j d k (fun h => hk (h ▸ Finset.mem_range.1 hj))
  have supp : ∀ (l : List Nat), (∀ i ∈ l, i < A.n) → ∀ d k, A.n ≤ k → sweepOp (matOp β.act hβ A) N l d k = 0 := by
    intro l
    induction l with
    | nil => intro _ d k _; rfl
    | cons i l ih =>
      intro hl d k hk
      have := hl i (List.mem_cons_self ..)
      simp only [sweepOp, LinearMap.add_apply, Pi.add_apply, Module.End.mul_apply, hNi i d k (by omega), zero_add]
      exact ih (fun j hj => hl j (List.mem_cons_of_mem _ hj)) _ k hk
  have mem1 : ∀ i ∈ List.range A.n, i < A.n := fun i hi => List.mem_range.1 hi
  have mem2 : ∀ i ∈ (List.range A.n).reverse, i < A.n := fun i hi => List.mem_range.1 (List.mem_reverse.1 hi)
  refine ⟨sweepOp (matOp β.act hβ A) N (List.range A.n), sweepOp (matOp β.act hβ A) N (List.range A.n).reverse, J, ?_, ?_, ?_, ?_, ?_⟩
  · intro b x
    obtain ⟨v', h⟩ := sweep_list β hβ A hS w N hN b (List.range A.n) mem1 x (x 0)
    unfold bsorf forRangeM
    rw [h]
    rfl
  · intro b x
    obtain ⟨v', h⟩ := sweep_list β hβ A hS w N hN b (List.range A.n).reverse mem2 x (x 0)
    unfold bsorb forDownM
    rw [h]
    rfl
  · intro b x
    obtain ⟨x', hx'⟩ := ((C25_sweeps_succeed_iff β w A hS (fun i hi => ⟨D i hi, hD' i hi⟩) b x).1 hI).1
    rw [hx']
    congr 1
    funext k
    by_cases hk : k < A.n
    · have e := C25_dbjac β w (fun a x => hβ a w x) A hS (fun i hi => ⟨D i hi, hD' i hi⟩) b x x' hx' k hk (D k hk) (hD' k hk)
      have : x' k - x k = w • blockInv β (D k hk) (hb k hk) (b k - A.apply β.act x k) := by
        apply (hb k hk).1
        rw [e, hβ, act_blockInv]
      rw [sub_eq_iff_eq_add'] at this
      rw [this, Pi.add_apply, Jk, if_pos hk]
      simp only [N, dif_pos hk, rowOp]
      simp [cut, matOp, hk]
    · have : x' k = x k := by
        unfold dbjac at hx'
        rw [Res.bind_eq_ok] at hx'
        obtain ⟨v, -, hx'⟩ := hx'
        injection hx' with hx'
        rw [← hx']
        simp [hk]
      rw [this, Pi.add_apply, Jk, if_neg hk, add_zero]
  · intro d i hi
    refine ⟨supp _ mem1 d i hi, supp _ mem2 d i hi, ?_⟩
    rw [Jk, if_neg (by omega)]
  · intro B hB hA
    have sy : ∀ i, i < A.n → Adjoint (blockDot B A.n) (N i) (N i) := by
      intro i hi
      obtain ⟨a, ha, h, e⟩ := hN i hi
      rw [e]
      exact rowOp_symm hB β hβ A hA hi (hS i hi) w ha h
    refine ⟨sweepOp_adj (blockDot_scalarProd hB A.n) _ N (matOp_symm β.act hβ A hA) _ (fun i hi => sy i (mem1 i hi)), ?_⟩
    have : ∀ s : Finset Nat, (∀ i ∈ s, i < A.n) → Adjoint (blockDot B A.n) (∑ i ∈ s, N i) (∑ i ∈ s, N i) := by
      intro s
      induction s using Finset.induction_on with
      | empty => intro _; simpa using Adjoint.zero (blockDot_scalarProd hB A.n)
      | insert i s hi ih =>
        intro hs
        rw [Finset.sum_insert hi]
        exact Adjoint.add (blockDot_scalarProd hB A.n) (sy i (hs i (Finset.mem_insert_self ..)))
          (ih fun j hj => hs j (Finset.mem_insert_of_mem hj))
    exact this _ fun i hi => Finset.mem_range.1 hi

theorem iterate_pure {S : Type} (n : Nat) (f : S → Res S) (g : S → S) (h : ∀ s, f s = .ok (g s)) (s : S) : iterate n f s = .ok (g^[n] s) := by
  unfold iterate
  induction n with
  | zero => rfl
  | succ n ih => rw [forRangeM_succ, ih, Res.ok_bind, h, Function.iterate_succ_apply']

theorem relax_iterate {V : Type} [AddCommGroup V] (A S : V → V) (b : V) (k : Nat) (u : V) :
    Amg.relax A S b k u = (fun u => u + S (b - A u))^[k] u := by
  induction k generalizing u with
  | zero => rfl
  | succ k ih => rw [Amg.relax, ih, Function.iterate_succ_apply]

/-- `k` sweeps from `0` are the operator `relaxOp`. -/
theorem iterate_relax (M F : Module.End K (Nat → V)) (n k : Nat) (f : (Nat → V) → (Nat → V) → Res (Nat → V))
    (h : ∀ b x, f b x = .ok (x + F (cut n b - M x))) (b : Nat → V) :
    iterate k (f b) 0 = .ok (Amg.relaxOp M F k (cutOp K n b)) := by
  rw [iterate_pure k (f b) _ (h b), ← relax_iterate M F, Amg.relax_op, map_zero, add_zero]
  rfl

end ops
end Istl
