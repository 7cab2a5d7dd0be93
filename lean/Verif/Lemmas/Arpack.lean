import Verif.Spec.Arpack
import Verif.Props.C09
import Verif.Lemmas.Vec
import Mathlib.Analysis.Matrix.PosDef

namespace Istl
namespace Arpack

theorem sum_blocks (m q : Nat) (F : Nat → Nat → ℝ) :
    ∑ J ∈ Finset.range m, ∑ c ∈ Finset.range q, F J c = ∑ j ∈ Finset.range (m * q), F (j / q) (j % q) := by
  induction m with
  | zero => simp
  | succ m ih =>
    rw [Finset.sum_range_succ, ih, Nat.succ_mul, Finset.sum_range_add]
    congr 1
    refine Finset.sum_congr rfl (fun c hc => ?_)
    have hc := Finset.mem_range.mp hc
    have hq : 0 < q := by omega
    rw [Nat.mul_comm m q, Nat.mul_add_div hq, Nat.div_eq_of_lt hc, Nat.add_zero, Nat.mul_add_mod, Nat.mod_eq_of_lt hc]

theorem idx_lt {N k b i : Nat} (hb : b < N) (hi : i < k) : b * k + i < N * k := by
  calc b * k + i < b * k + k := by omega
    _ = (b + 1) * k := by ring
    _ ≤ N * k := Nat.mul_le_mul_right k hb

theorem idx_div {k b i : Nat} (hi : i < k) : (b * k + i) / k = b := by
  rw [Nat.mul_comm, Nat.mul_add_div (by omega), Nat.div_eq_of_lt hi, Nat.add_zero]

theorem idx_mod {k b i : Nat} (hi : i < k) : (b * k + i) % k = i := by
  rw [Nat.mul_comm, Nat.mul_add_mod, Nat.mod_eq_of_lt hi]

/-- Reading an array into a block vector. -/
theorem fromArray_ok {k L : Nat} {v : List ℝ} {f : Nat → ℝ} (hv : VecIs v L f) (b : BVec) (hb : b.n * k ≤ L) :
    ∃ b', fromArray k v b = .ok b' ∧ b'.n = b.n ∧ ∀ B i, B < b.n → i < k → b'.at' B i = f (B * k + i) := by
  obtain ⟨b', h, hn, hI, _⟩ := forRangeM_inv b.n (fun block b => forRangeM k (fun i b => do
      let z ← rd v (block * k + i)
      .ok { b with at' := upd b.at' block (upd (b.at' block) i z) }) b)
    (fun t c => c.n = b.n ∧ (∀ B i, B < t → i < k → c.at' B i = f (B * k + i)) ∧ True) b
    ⟨rfl, fun B i h => absurd h (by omega), trivial⟩ (by
      intro t s ht ⟨hn, hI, _⟩
      obtain ⟨c, h, hn', hI', hJ⟩ := forRangeM_inv k (fun i b => do
          let z ← rd v (t * k + i)
          .ok { b with at' := upd b.at' t (upd (b.at' t) i z) })
        (fun u c => c.n = b.n ∧ (∀ B i, B < t → i < k → c.at' B i = f (B * k + i)) ∧ ∀ i, i < u → c.at' t i = f (t * k + i)) s
        ⟨hn, hI, fun i h => absurd h (by omega)⟩ (by
          intro u c hu ⟨hn, hI, hJ⟩
          refine ⟨{ c with at' := upd c.at' t (upd (c.at' t) u (f (t * k + u))) }, ?_, hn, ?_, ?_⟩
          · rw [hv.2 _ (lt_of_lt_of_le (idx_lt ht hu) hb)]
            rfl
          · intro B i hB hi
            show upd c.at' t _ B i = _
            rw [upd, if_neg (by omega), hI B i hB hi]
          · intro i hi
            show upd c.at' t _ t i = _
            rw [upd, if_pos rfl, upd]
            split
            · rename_i e; rw [e]
            · exact hJ i (by omega))
      refine ⟨c, h, hn', ?_, trivial⟩
      intro B i hB hi
      rcases Nat.lt_or_ge B t with h1 | h1
      · exact hI' B i h1 hi
      · have : B = t := by omega
        rw [this]; exact hJ i hi)
  exact ⟨b', h, hn, hI⟩

/-- Writing a block vector into an array. -/
theorem toArray_ok {k : Nat} (b : BVec) (w : List ℝ) (hw : w.length = b.n * k) :
    ∃ w', toArray k b w = .ok w' ∧ VecIs w' (b.n * k) (b.flat k) := by
  obtain ⟨w', h, hl, hI⟩ := forRangeM_inv b.n (fun block v => forRangeM k (fun i v => wr v (block * k + i) (b.at' block i)) v)
    (fun t c => c.length = b.n * k ∧ ∀ j, j < t * k → c[j]? = some (b.flat k j)) w
    ⟨hw, fun j h => absurd h (by omega)⟩ (by
      intro t s ht ⟨hl, hI⟩
      obtain ⟨c, h, hl', hJ⟩ := forRangeM_inv k (fun i v => wr v (t * k + i) (b.at' t i))
        (fun u c => c.length = b.n * k ∧ ∀ j, j < t * k + u → c[j]? = some (b.flat k j)) s ⟨hl, hI⟩ (by
          intro u c hu ⟨hl, hJ⟩
          have hlt : t * k + u < c.length := by rw [hl]; exact idx_lt ht hu
          refine ⟨c.set (t * k + u) (b.at' t u), wr_lt _ hlt, by simp [hl], ?_⟩
          intro j hj
          rw [List.getElem?_set]
          by_cases e : t * k + u = j
          · rw [if_pos e, if_pos hlt, ← e, BVec.flat, idx_div hu, idx_mod hu]
          · rw [if_neg e]; exact hJ j (by omega))
      exact ⟨c, h, hl', fun j hj => hJ j (by rw [Nat.succ_mul] at hj; exact hj)⟩)
  refine ⟨w', h, hl, fun j hj => ?_⟩
  rw [rd, hI j hj]

theorem mvC_ok {p q : Nat} {A : SpMat Blk} (hA : A.WF) {x y : BVec} (hx : A.m ≤ x.n) (hy : A.n ≤ y.n) :
    mvC p q A x y = .ok { y with at' := A.mv (act p q) x.at' y.at' } := by
  rw [mvC, if_pos]
  simp only [List.all_eq_true, Bool.and_eq_true, decide_eq_true_eq, List.mem_range]
  exact fun i hi => ⟨by omega, fun e he => lt_of_lt_of_le ((hA i hi).2 e he) hx⟩

theorem mtvC_ok {p q : Nat} {A : SpMat Blk} (hA : A.WF) {x y : BVec} (hx : A.n ≤ x.n) (hy : A.m ≤ y.n) :
    mtvC p q A x y = .ok { y with at' := A.umtv (act p q) x.at' (forRange y.n (fun i y => upd y i 0) y.at') } := by
  rw [mtvC, if_pos]
  simp only [List.all_eq_true, Bool.and_eq_true, decide_eq_true_eq, List.mem_range]
  exact fun i hi e he => ⟨by omega, lt_of_lt_of_le ((hA i hi).2 e he) hy⟩

theorem act_mul (p q : Nat) (b : Blk) (x : Nat → ℝ) (r : Nat) : (act p q).mul b x r = ∑ c ∈ Finset.range q, b r c * x c := rfl
theorem act_tmul (p q : Nat) (b : Blk) (x : Nat → ℝ) (c : Nat) : (act p q).tmul b x c = ∑ r ∈ Finset.range p, b r c * x r := rfl

theorem mv_flat {p q : Nat} {A : SpMat Blk} (hA : A.WF) {x y : Nat → Nat → ℝ} {f : Nat → ℝ}
    (hx : ∀ B i, B < A.m → i < q → x B i = f (B * q + i)) {i : Nat} (hi : i < A.n * p) :
    A.mv (act p q) x y (i / p) (i % p) = mulVec (A.m * q) (flat p q A) f i := by
  have hp : i / p < A.n := Nat.div_lt_of_lt_mul (by rw [Nat.mul_comm]; exact hi)
  rw [C09_mv _ A hA, if_pos hp, Finset.sum_apply, mulVec]
  simp only [act_mul]
  rw [Finset.sum_congr rfl (fun J hJ => Finset.sum_congr rfl (fun c hc => by
      rw [hx J c (Finset.mem_range.mp hJ) (Finset.mem_range.mp hc)])),
    sum_blocks A.m q (fun J c => A.entry (i / p) J (i % p) c * f (J * q + c))]
  refine Finset.sum_congr rfl (fun j hj => ?_)
  rw [flat, Nat.div_add_mod']

theorem tmv_flat {p q : Nat} {A : SpMat Blk} (hA : A.WF) {x y : Nat → Nat → ℝ} {f : Nat → ℝ} {L : Nat}
    (hx : ∀ B i, B < A.n → i < p → x B i = f (B * p + i)) {j : Nat} (hj : j < L * q) :
    A.umtv (act p q) x (forRange L (fun i y => upd y i 0) y) (j / q) (j % q) = tmulVec (A.n * p) (flat p q A) f j := by
  have hq : j / q < L := Nat.div_lt_of_lt_mul (by rw [Nat.mul_comm]; exact hj)
  have hz : ∀ (m : Nat) (y : Nat → Nat → ℝ) (j : Nat), forRange m (fun i y => upd y i 0) y j = if j < m then 0 else y j := by
    intro m y j
    rw [forRange_rows m _ (fun _ _ => 0) (by intros; rfl) (by intros; rfl)]
  rw [C09_umtv _ A hA, hz, if_pos hq, zero_add, Finset.sum_apply, tmulVec]
  simp only [act_tmul]
  rw [Finset.sum_congr rfl (fun J hJ => Finset.sum_congr rfl (fun c hc => by
      rw [hx J c (Finset.mem_range.mp hJ) (Finset.mem_range.mp hc)])),
    sum_blocks A.n p (fun J c => A.entry J (j / q) c (j % q) * f (J * p + c))]
  refine Finset.sum_congr rfl (fun i hi => ?_)
  rw [flat, Nat.div_add_mod']

/-- Bounds of a quadratic form from the eigenvalues of a symmetric matrix. -/
theorem form_le {n : Nat} {S : Nat → Nat → ℝ} (hS : ∀ i j, i < n → j < n → S i j = S j i) {lam : ℝ}
    (h : ∀ mu f, IsEig n (mulVec n S) mu f → mu ≤ lam) (v : Nat → ℝ) :
    ∑ i ∈ Finset.range n, v i * mulVec n S v i ≤ lam * normSq n v := by
  classical
  set T : Matrix (Fin n) (Fin n) ℝ := fun i j => (if i = j then lam else 0) - S i j with hT
  have herm : T.IsHermitian := by
    refine Matrix.IsHermitian.ext (fun i j => ?_)
    simp only [star_trivial, hT, hS j i j.2 i.2, eq_comm]
  have hpos : T.PosSemidef := by
    rw [herm.posSemidef_iff_eigenvalues_nonneg]
    intro k
    have hu := herm.mulVec_eigenvectorBasis k
    set u : Fin n → ℝ := ⇑(herm.eigenvectorBasis k) with hudef
    have hne : u ≠ 0 := by
      intro h0
      exact herm.eigenvectorBasis.orthonormal.ne_zero k (by ext i; exact congrFun h0 i)
    set f : Nat → ℝ := fun i => if hi : i < n then u ⟨i, hi⟩ else 0 with hf
    have hfi : ∀ i : Fin n, f i = u i := fun i => by simp [hf]
    have := h (lam - herm.eigenvalues k) f ⟨?_, ?_⟩
    · simpa using this
    · obtain ⟨i, hi⟩ := Function.ne_iff.mp hne
      exact ⟨i, i.2, by rw [hfi]; exact hi⟩
    · intro i hi
      have e := congrFun hu ⟨i, hi⟩
      simp only [Matrix.mulVec, dotProduct, hT, sub_mul, Finset.sum_sub_distrib, ite_mul, zero_mul, Finset.sum_ite_eq,
        Finset.mem_univ, if_true, Pi.smul_apply, smul_eq_mul] at e
      rw [mulVec, Finset.sum_range, hf]
      simp only [Fin.is_lt, dite_true, Fin.eta, dif_pos hi]
      linarith
  have := hpos.dotProduct_mulVec_nonneg (fun i => v i)
  simp only [dotProduct, Matrix.mulVec, hT, sub_mul, Finset.sum_sub_distrib, ite_mul, zero_mul, Finset.sum_ite_eq,
        Finset.mem_univ, if_true, star_trivial, Pi.star_apply, mul_sub] at this
  rw [normSq, Finset.mul_sum, Finset.sum_range, Finset.sum_range]
  simp only [mulVec, Finset.sum_range]
  have e : ∑ i : Fin n, v i * (lam * v i) = ∑ i : Fin n, lam * (v i * v i) := Finset.sum_congr rfl (fun i _ => by ring)
  linarith

theorem form_ge {n : Nat} {S : Nat → Nat → ℝ} (hS : ∀ i j, i < n → j < n → S i j = S j i) {lam : ℝ}
    (h : ∀ mu f, IsEig n (mulVec n S) mu f → lam ≤ mu) (v : Nat → ℝ) :
    lam * normSq n v ≤ ∑ i ∈ Finset.range n, v i * mulVec n S v i := by
  have := form_le (S := fun i j => - S i j) (lam := -lam) (fun i j hi hj => by rw [hS i j hi hj]) (by
    intro mu f ⟨h0, h1⟩
    have := h (-mu) f ⟨h0, fun i hi => ?_⟩
    · linarith
    · have := h1 i hi
      simp only [mulVec, neg_mul, Finset.sum_neg_distrib] at this ⊢
      linarith) v
  simp only [mulVec, neg_mul, Finset.sum_neg_distrib, mul_neg] at this ⊢
  linarith

end Arpack
end Istl
