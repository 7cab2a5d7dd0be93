import Verif.Lemmas.Dominant
import Verif.Props.C69

/-! # LoopSolver converges for diagonally dominant matrices -/

namespace Istl
open Gsetc SpMat Solver Amg
variable {R V : Type} [Ring R] [AddCommGroup V] [Module R V] [Module ℝ V] {ν : Seminorm ℝ V} {A : SpMat R} {size : R → ℝ} {c : Nat → ℝ} {q : ℝ}

/-- The product is bounded. -/
theorem dom_upper (act : R → V →+ V) (hd : A.Dominant ν act size c q) : ∃ S, 0 ≤ S ∧ ∀ (y : Nat → V) (ε : ℝ), 0 ≤ ε → (∀ j, ν (y j) ≤ ε) →
    ∀ i, i < A.n → ν (A.apply act y i) ≤ S * ε := by
  refine ⟨∑ i ∈ Finset.range A.n, ((A.row i).map fun e => size e.2).sum, Finset.sum_nonneg fun i _ => size_sum_nonneg hd.nonneg _, fun y ε hε hy i hi => ?_⟩
  have h1 := partSum_bound hd (fun _ => True) y ε i (fun e _ _ => hy e.1)
  rw [List.filter_eq_self.2 (by simp)] at h1
  refine h1.trans (mul_le_mul_of_nonneg_right ?_ hε)
  exact Finset.single_le_sum (f := fun i => ((A.row i).map fun e => size e.2).sum) (fun j _ => size_sum_nonneg hd.nonneg _) (Finset.mem_range.2 hi)

/-- A lower bound for finitely many positive numbers. -/
theorem pos_bound (f : Nat → ℝ) (n : Nat) (h : ∀ i, i < n → 0 < f i) : ∃ κ, 0 < κ ∧ ∀ i, i < n → κ ≤ f i := by
  induction n with
  | zero => exact ⟨1, one_pos, fun i hi => by omega⟩
  | succ n ih =>
    obtain ⟨κ, h1, h2⟩ := ih fun i hi => h i (by omega)
    refine ⟨min κ (f n), lt_min h1 (h n (by omega)), fun i hi => ?_⟩
    rcases Nat.lt_succ_iff_lt_or_eq.1 hi with h | rfl
    · exact (min_le_left _ _).trans (h2 i h)
    · exact min_le_right _ _

/-- The product with a vector that is largest in block `i`. -/
theorem dom_lower (act : R → V →+ V) (hS : A.Sorted) (hG : A.HasDiag) (hd : A.Dominant ν act size c q) (y : Nat → V) {i : Nat} (hi : i < A.n)
    (hy : ∀ j, ν (y j) ≤ ν (y i)) : c i * (1 - q) * ν (y i) ≤ ν (A.apply act y i) := by
  obtain ⟨a, ha⟩ := hG i hi
  have b1 := partSum_bound hd (· < i) y _ i (fun e _ _ => hy e.1)
  have b2 := partSum_bound hd (i < ·) y _ i (fun e _ _ => hy e.1)
  have hr := hd.row i hi
  rw [off_split] at hr
  have hs : ν (A.partSum act (· < i) y i + A.partSum act (i < ·) y i) ≤ q * c i * ν (y i) :=
    (map_add_le_add ν _ _).trans ((add_le_add b1 b2).trans (by rw [← add_mul]; exact mul_le_mul_of_nonneg_right hr (apply_nonneg ν _)))
  have hg := hd.diag i hi a ha (y i)
  have e : act a (y i) = A.apply act y i - (A.partSum act (· < i) y i + A.partSum act (i < ·) y i) := by
    rw [apply_split act A (hS i hi) ha y]; abel
  have := map_sub_le_add ν (A.apply act y i) (A.partSum act (· < i) y i + A.partSum act (i < ·) y i)
  rw [← e] at this
  nlinarith

variable {D : V → V → ℝ} {act : R → V →+ V} {E : Env ℝ ℝ (Fin A.n → V)}

theorem extend_apply {n : Nat} (x : Fin n → V) (i : Fin n) : extend x i = x i := by simp [extend]

theorem extend_sub {n : Nat} (x y : Fin n → V) : extend (x - y) = extend x - extend y := by
  funext i; by_cases hi : i < n <;> simp [extend, hi]

theorem extend_bound {n : Nat} {x : Fin n → V} {ε : ℝ} (hε : 0 ≤ ε) (h : ∀ i, ν (x i) ≤ ε) (j : Nat) : ν (extend x j) ≤ ε := by
  by_cases hj : j < n
  · simpa [extend, hj] using h ⟨j, hj⟩
  · simpa [extend, hj] using hε

theorem norm_bounds (hE : MatEnv D act A E) (hν : ∀ v, ν v ^ 2 = D v v) (y : Fin A.n → V) :
    (∀ i, ν (y i) ≤ E.norm y) ∧ ∀ ε, 0 ≤ ε → (∀ i, ν (y i) ≤ ε) → E.norm y ≤ √A.n * ε := by
  rw [hE.norm]
  constructor
  · intro i
    refine Real.le_sqrt_of_sq_le ?_
    rw [hν]
    exact Finset.single_le_sum (f := fun i => D (y i) (y i)) (fun j _ => by rw [← hν]; positivity) (Finset.mem_univ i)
  · intro ε hε h
    rw [← Real.sqrt_sq hε, ← Real.sqrt_mul (Nat.cast_nonneg _)]
    apply Real.sqrt_le_sqrt
    calc ∑ i, D (y i) (y i) ≤ ∑ _i : Fin A.n, ε ^ 2 := Finset.sum_le_sum fun i _ => by
          rw [← hν]; exact pow_le_pow_left₀ (apply_nonneg ν _) (h i) 2
      _ = A.n * ε ^ 2 := by simp

/-- The matrix as operator on block vectors. -/
def blockOp (act : R → V →+ V) (A : SpMat R) (x : Fin A.n → V) : Fin A.n → V := fun i => A.apply act (extend x) i

/-- Two constants for the size of `A e`. -/
theorem dom_equivalent (hE : MatEnv D act A E) (hν : ∀ v, ν v ^ 2 = D v v) (hS : A.Sorted) (hG : A.HasDiag) (hd : A.Dominant ν act size c q) :
    ∃ S κ, 0 ≤ S ∧ 0 < κ ∧ (∀ (e : Fin A.n → V) ε, 0 ≤ ε → (∀ i, ν (e i) ≤ ε) → E.norm (blockOp act A e) ≤ S * ε) ∧
      ∀ (e : Fin A.n → V) i, κ * ν (e i) ≤ E.norm (blockOp act A e) := by
  obtain ⟨S, hS0, hSb⟩ := dom_upper act hd
  obtain ⟨κ, hκ, hκb⟩ := pos_bound (fun i => c i * (1 - q)) A.n fun i hi => mul_pos (hd.pos i hi) (by linarith [hd.rate.2])
  refine ⟨√A.n * S, κ, by positivity, hκ, fun e ε hε he => ?_, fun e i => ?_⟩
  · have := (norm_bounds hE hν (blockOp act A e)).2 (S * ε) (by positivity) fun i => hSb _ ε hε (extend_bound hε he) i i.2
    rwa [← mul_assoc] at this
  · obtain ⟨m, -, hm⟩ := Finset.exists_max_image Finset.univ (fun j : Fin A.n => ν (e j)) ⟨i, Finset.mem_univ i⟩
    have h1 := dom_lower act hS hG hd (extend e) m.2 (fun j => by
      rw [extend_apply]; exact extend_bound (apply_nonneg ν _) (fun k => hm k (Finset.mem_univ k)) j)
    rw [extend_apply] at h1
    have h2 := (norm_bounds hE hν (blockOp act A e)).1 m
    have h3 : ν (blockOp act A e m) = ν (A.apply act (extend e) m) := rfl
    have h4 := hm i (Finset.mem_univ i)
    calc κ * ν (e i) ≤ κ * ν (e m) := by gcongr
      _ ≤ c m * (1 - q) * ν (e m) := mul_le_mul_of_nonneg_right (hκb m m.2) (apply_nonneg ν _)
      _ ≤ _ := h1.trans (h3 ▸ h2)

theorem blockOp_sub (act : R → V →+ V) (A : SpMat R) (x y : Fin A.n → V) : blockOp act A (x - y) = blockOp act A x - blockOp act A y := by
  funext i
  have := partSum_sub act A (fun _ => True) (extend x) (extend y) i
  change A.apply act (extend (x - y)) i = A.apply act (extend x) i - A.apply act (extend y) i
  rw [extend_sub]
  exact this.symm

theorem dom_surj [FiniteDimensional ℝ V] (hact : ∀ a (c : ℝ) x, act a (c • x) = c • act a x) (hE : MatEnv D act A E) (hν : ∀ v, ν v ^ 2 = D v v)
    (hDp : ∀ v, v ≠ 0 → 0 < D v v) (hS : A.Sorted) (hG : A.HasDiag) (hd : A.Dominant ν act size c q) (r : Fin A.n → V) :
    ∃ z, blockOp act A z = r := by
  obtain ⟨S, κ, -, hκ, -, hlow⟩ := dom_equivalent hE hν hS hG hd
  have inj : Function.Injective (finOp act hact A) := by
    rw [injective_iff_map_eq_zero]
    intro x hx
    have hx : blockOp act A x = 0 := hx
    funext i
    have h1 := hlow x i
    rw [hx, hE.norm] at h1
    have h0 : D (0 : V) 0 = 0 := by rw [← hν]; simp
    simp only [Pi.zero_apply, h0, Finset.sum_const_zero, Real.sqrt_zero] at h1
    by_contra hne
    have h2 := hDp _ hne
    rw [← hν] at h2
    have h3 : ν (x i) = 0 := le_antisymm (by nlinarith) (apply_nonneg ν _)
    rw [h3] at h2; simp at h2
  exact (LinearMap.injective_iff_surjective.mp inj) r

/-- **LoopSolver** with a preconditioner that shrinks the largest block of each error. -/
theorem loop_max [FiniteDimensional ℝ V] (hact : ∀ a (c : ℝ) x, act a (c • x) = c • act a x) (hE : MatEnv D act A E) (hν : ∀ v, ν v ^ 2 = D v v)
    (hDp : ∀ v, v ≠ 0 → 0 < D v v) (hS : A.Sorted) (hG : A.HasDiag) (hd : A.Dominant ν act size c q) {ρ : ℝ} (hρ : 0 ≤ ρ ∧ ρ < 1)
    (hstep : ∀ k (e : Fin A.n → V) ε, 0 ≤ ε → (∀ i, ν (e i) ≤ ε) → ∀ i, ν (e i - E.prec k (blockOp act A e) i) ≤ ρ * ε) :
    ∃ C, ConvergesMax ν E (blockOp act A) (fun red maxit => loopApply (K := ℝ) E red maxit) ρ C := by
  obtain ⟨S, κ, hS0, hκ, hup, hlow⟩ := dom_equivalent hE hν hS hG hd
  have hsub : ∀ x b, E.subOp x b = b - blockOp act A x := fun x b => by
    rw [hE.sub]; congr 1; funext i; exact hE.op x i
  have main : ∀ red maxit x b, ∃ xs bs : Nat → Fin A.n → V, bs 0 = defect0 E x b ∧ xs 0 = (E.pre x b).1 ∧
      (∀ z ε k, blockOp act A z = (E.pre x b).2 → (∀ i, ν (z i - xs 0 i) ≤ ε) → ∀ i, ν (z i - xs k i) ≤ ρ ^ k * ε) ∧
      (∀ k, E.norm (bs k) ≤ S / κ * ρ ^ k * E.norm (bs 0)) ∧
      (let e := loopApply (K := ℝ) E red maxit x b
       e.exc = none ∧ e.it.i ≤ maxit ∧ e.it.def0 = E.norm (bs 0) ∧ e.it.cur = E.norm (bs e.it.i) ∧
        e.it.trace = record (fun j => E.norm (bs j)) e.it.i ∧ e.x = E.post (xs e.it.i) ∧ e.b = bs e.it.i ∧
        e.it.converged = small E red (E.norm (bs 0)) (E.norm (bs e.it.i)) ∧
        (∀ j, j < e.it.i → small E red (E.norm (bs 0)) (E.norm (bs j)) = false) ∧ (e.it.converged = false → e.it.i = maxit)) := by
    intro red maxit x b
    set s := loopSeq E (E.pre x b).1 (defect0 E x b) with hs
    have inv : ∀ z, blockOp act A z = (E.pre x b).2 → ∀ k, (s k).2 = blockOp act A (z - (s k).1) ∧ ∀ ε, 0 ≤ ε → (∀ i, ν (z i - (s 0).1 i) ≤ ε) →
        ∀ i, ν (z i - (s k).1 i) ≤ ρ ^ k * ε := by
      intro z hz k
      induction k with
      | zero =>
        refine ⟨?_, fun ε _ h i => by simpa using h i⟩
        rw [blockOp_sub, hz]
        exact hsub _ _
      | succ k ih =>
        have e1 : (s (k + 1)).1 = (s k).1 + E.prec (k + 1) (s k).2 := rfl
        have e2 : (s (k + 1)).2 = (s k).2 - blockOp act A (E.prec (k + 1) (s k).2) := hsub _ _
        refine ⟨?_, fun ε hε h i => ?_⟩
        · rw [e1, e2, ← sub_sub, blockOp_sub act A (z - (s k).1), ← ih.1]
        · have := hstep (k + 1) (z - (s k).1) (ρ ^ k * ε) (mul_nonneg (pow_nonneg hρ.1 k) hε) (ih.2 ε hε h) i
          rw [← ih.1] at this
          rw [e1, pow_succ', mul_assoc, Pi.add_apply, ← sub_sub]
          exact this
    refine ⟨fun k => (s k).1, fun k => (s k).2, rfl, rfl, fun z ε k hz h i => ?_, fun k => ?_, ?_⟩
    · exact (inv z hz k).2 ε ((apply_nonneg ν _).trans (h i)) h i
    · obtain ⟨z, hz⟩ := dom_surj hact hE hν hDp hS hG hd (E.pre x b).2
      have h0 : ∀ i, ν (z i - (s 0).1 i) ≤ E.norm (s 0).2 / κ := fun i => by
        rw [le_div_iff₀ hκ, mul_comm, (inv z hz 0).1]
        exact hlow (z - (s 0).1) i
      have hn : 0 ≤ E.norm (s 0).2 := by rw [hE.norm]; exact Real.sqrt_nonneg _
      have h1 := (inv z hz k).2 _ (div_nonneg hn hκ.le) h0
      dsimp only
      calc E.norm (s k).2 = E.norm (blockOp act A (z - (s k).1)) := by rw [← (inv z hz k).1]
        _ ≤ S * (ρ ^ k * (E.norm (s 0).2 / κ)) := hup _ _ (mul_nonneg (pow_nonneg hρ.1 k) (div_nonneg hn hκ.le)) h1
        _ = _ := by ring
    · exact frame_full E red maxit E.norm (loopAdvance E) (fun s => E.norm s.2) (fun _ s => s) (fun x b _ => (x, b)) Prod.fst Prod.snd x b
        s rfl rfl rfl rfl (fun _ => rfl) (fun _ _ => ⟨rfl, rfl⟩) (fun _ _ => rfl) (fun _ => hE.finite _)
  refine ⟨S / κ, hρ, fun red maxit x b => ?_, fun red maxit x b => ?_, fun red maxit x b t ht => ?_, fun red hred => ?_⟩
  · obtain ⟨xs, bs, -, -, -, -, h1, -⟩ := main red maxit x b
    exact h1
  · obtain ⟨xs, bs, -, hx0, he, -, -, -, -, -, -, h6, -⟩ := main red maxit x b
    refine ⟨_, h6, fun z ε hz h i => ?_⟩
    rw [← hx0] at h
    exact he z ε _ hz h i
  · obtain ⟨xs, bs, hb0, -, -, hdf, -, -, -, -, h5, -⟩ := main red maxit x b
    rw [h5] at ht
    unfold record at ht
    obtain ⟨k, -, rfl⟩ := List.mem_map.1 ht
    rw [← hb0]
    exact hdf k
  · obtain ⟨N, hN⟩ := exists_pow_lt_of_lt_one (show 0 < red / (S / κ + 1) by positivity) hρ.2
    refine ⟨N, fun maxit x b hm => ?_⟩
    obtain ⟨xs, bs, hb0, -, -, hdf, h1, h2, h3, h4, -, -, -, h8, h9, h10⟩ := main red maxit x b
    have hsm : small E red (E.norm (bs 0)) (E.norm (bs N)) = true := by
      have hn0 : 0 ≤ E.norm (bs 0) := by rw [hE.norm]; exact Real.sqrt_nonneg _
      unfold small
      rw [Bool.or_eq_true, hE.lt, hE.lt]
      rcases hn0.eq_or_lt with hz | hp
      · right
        have := hdf N
        rw [← hz, mul_zero] at this
        exact lt_of_le_of_lt this hE.tiny
      · left
        refine lt_of_le_of_lt (hdf N) ?_
        rw [mul_comm (E.norm (bs 0))]
        apply mul_lt_mul_of_pos_right _ hp
        rw [lt_div_iff₀ (by positivity)] at hN
        have : 0 ≤ ρ ^ N := pow_nonneg hρ.1 N
        linarith
    have hle : (loopApply (K := ℝ) E red maxit x b).it.i ≤ N := by
      by_contra hlt
      rw [h9 N (by omega)] at hsm
      cases hsm
    have hcv : (loopApply (K := ℝ) E red maxit x b).it.converged = true := by
      cases hc : (loopApply (K := ℝ) E red maxit x b).it.converged with
      | true => rfl
      | false =>
        have e := h10 hc
        have : (loopApply (K := ℝ) E red maxit x b).it.i = N := by omega
        rw [h8, this, hsm] at hc
        cases hc
    refine ⟨?_, hle⟩
    change small E red (loopApply (K := ℝ) E red maxit x b).it.def0 (loopApply (K := ℝ) E red maxit x b).it.cur = true
    rw [h3, h4, ← h8, hcv]

end Istl
