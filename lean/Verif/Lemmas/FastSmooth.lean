import Mathlib.Algebra.BigOperators.Group.Finset.Basic
import Mathlib.Algebra.BigOperators.Intervals
import Verif.Spec.FastAmg
import Verif.Props.C25

/-! The fused smoothers of FastAMG. -/

namespace Istl
open Gsetc SpMat
namespace FastAmg
variable {B X K : Type} [AddCommGroup X]

theorem scatter_eq (act : B → X →+ X) (v : X) (l : List (Nat × B)) (d : Nat → X) (i : Nat) :
    l.foldl (fun d e => upd d e.1 (d e.1 - act e.2 v)) d i =
      d i - ((l.filter fun e => decide (e.1 = i)).map fun e => act e.2 v).sum := by
  induction l generalizing d with
  | nil => simp
  | cons e l ih =>
    rw [List.foldl_cons, ih]
    by_cases h : e.1 = i
    · subst h
      simp [sub_sub]
    · rw [upd_ne _ _ (fun h' => h h'.symm)]
      simp [h]

theorem partSum_eq_sum (act : B → X →+ X) (A : SpMat B) (P : Nat → Prop) [DecidablePred P] (n : Nat) (x : Nat → X) (i : Nat)
    (hr : ∀ e ∈ A.row i, e.1 < n) : A.partSum act P x i = ∑ j ∈ (Finset.range n).filter P, A.blockAct act i j (x j) := by
  unfold SpMat.blockAct SpMat.partSum
  revert hr
  induction A.row i with
  | nil => simp
  | cons e r ih =>
    intro hr
    have ih := ih fun f hf => hr f (List.mem_cons_of_mem _ hf)
    have he := hr e (List.mem_cons_self ..)
    have s1 : ∀ j, (((e :: r).filter fun f => decide (f.1 = j)).map fun f => act f.2 (x j)).sum =
        (if e.1 = j then act e.2 (x j) else 0) + ((r.filter fun f => decide (f.1 = j)).map fun f => act f.2 (x j)).sum := by
      intro j
      by_cases h : e.1 = j <;> simp [h]
    simp only [s1, Finset.sum_add_distrib]
    rw [← ih]
    by_cases h : P e.1
    · rw [List.filter_cons_of_pos (by simpa using h), List.map_cons, List.sum_cons]
      congr 1
      rw [Finset.sum_eq_single e.1]
      · simp
      · intro j _ hj; rw [if_neg (fun h : e.1 = j => hj h.symm)]
      · intro hn; exact absurd (Finset.mem_filter.2 ⟨Finset.mem_range.2 he, h⟩) hn
    · rw [List.filter_cons_of_neg (by simpa using h), Finset.sum_eq_zero, zero_add]
      intro j hj
      have : e.1 ≠ j := fun h' => h (h' ▸ (Finset.mem_filter.1 hj).2)
      simp [this]

/-- What `presmooth` leaves behind after the rows below `k`. -/
structure PreInv (β : BlockSolve B X X) (A : SpMat B) (b x0 d0 : Nat → X) (k : Nat) (s : (Nat → X) × (Nat → X)) : Prop where
  keep : ∀ i, k ≤ i → s.1 i = x0 i ∧ s.2 i = d0 i
  solved : ∀ i, i < k → ∀ a, (A.row i).Stores i a → β.act a (s.1 i) = b i - A.partSum β.act (· < i) s.1 i
  defect : ∀ i, i < k → s.2 i = - ∑ j ∈ Finset.Ioo i k, A.blockAct β.act j i (s.1 j)

theorem preRow_ok (β : BlockSolve B X X) (A : SpMat B) (b : Nat → X) {i : Nat} (hS : (A.row i).Asc) {a : B} (ha : (A.row i).Stores i a)
    (s : (Nat → X) × (Nat → X)) : preRow β A b i s = (solveLoc β a (s.1 i) (b i - A.partSum β.act (· < i) s.1 i) >>= fun v =>
      .ok (upd s.1 i v, ((A.row i).filter fun e => decide (e.1 < i)).foldl (fun d e => upd d e.1 (d e.1 - β.act e.2 v)) (upd s.2 i 0))) := by
  unfold preRow
  rw [dropWhile_diag hS ha]
  have uu : ∀ (f : Nat → X) (u v : X), upd (upd f i u) i v = upd f i v := by
    intro f u v; funext k; by_cases h : k = i <;> simp [upd, h]
  simp only [if_true, takeWhile_lt hS, residual_eq, upd_same, uu]
  rfl

theorem presmooth_inv (β : BlockSolve B X X) (A : SpMat B) (hS : A.Sorted) (hD : A.HasDiag) (b x0 d0 : Nat → X) :
    ∀ k, k ≤ A.n → ∀ s, forRangeM k (preRow β A b) (x0, d0) = .ok s → PreInv β A b x0 d0 k s := by
  intro k
  induction k with
  | zero =>
    intro _ s h
    rw [forRangeM_zero] at h
    obtain rfl : (x0, d0) = s := by injection h
    exact ⟨fun i _ => ⟨rfl, rfl⟩, fun i hi => by omega, fun i hi => by omega⟩
  | succ k ih =>
    intro hk s h
    rw [forRangeM_succ, Res.bind_eq_ok] at h
    obtain ⟨t, ht, h⟩ := h
    have I := ih (by omega) t ht
    obtain ⟨a, ha⟩ := hD k (by omega)
    rw [preRow_ok β A b (hS k (by omega)) ha, Res.bind_eq_ok] at h
    obtain ⟨v, hv, h⟩ := h
    injection h with h
    have hv := solveLoc_ok β hv
    have ex : s.1 = upd t.1 k v := by rw [← h]
    have ed : ∀ i, s.2 i = (upd t.2 k 0) i - (((((A.row k).filter fun e => decide (e.1 < k)).filter fun e => decide (e.1 = i)).map
        fun e => β.act e.2 v).sum) := by
      intro i; rw [← h]; exact scatter_eq β.act v _ _ i
    have far : ∀ i, k ≤ i → ((((A.row k).filter fun e => decide (e.1 < k)).filter fun e => decide (e.1 = i)).map
        fun e => β.act e.2 v) = [] := by
      intro i hi
      rw [List.map_eq_nil_iff, List.filter_eq_nil_iff]
      intro e he
      have := (List.mem_filter.1 he).2
      simp only [decide_eq_true_eq] at this ⊢
      omega
    have near : ∀ i, i < k → ((((A.row k).filter fun e => decide (e.1 < k)).filter fun e => decide (e.1 = i)).map
        fun e => β.act e.2 v).sum = A.blockAct β.act k i v := by
      intro i hi
      unfold SpMat.blockAct SpMat.partSum
      rw [List.filter_filter]
      refine congrArg List.sum (congrArg _ (List.filter_congr fun e _ => ?_))
      by_cases h : e.1 = i <;> simp [h, hi]
    refine ⟨fun i hi => ?_, fun i hi a' ha' => ?_, fun i hi => ?_⟩
    · have := I.keep i (by omega)
      rw [ex, ed, far i (by omega), upd_ne _ _ (by omega), upd_ne _ _ (by omega), List.sum_nil, sub_zero]
      exact this
    · by_cases hik : i = k
      · subst hik
        obtain rfl := stores_unique (hS i (by omega)) ha' ha
        rw [ex, upd_same, hv]
        congr 1
        exact partSum_congr β.act A (· < i) i fun j hj => (upd_ne _ _ (by omega)).symm
      · rw [ex, upd_ne _ _ hik, I.solved i (by omega) a' ha']
        congr 1
        exact partSum_congr β.act A (· < i) i fun j hj => (upd_ne _ _ (by omega)).symm
    · by_cases hik : i = k
      · subst hik
        rw [ed, far i (le_refl _), upd_same]
        have : Finset.Ioo i (i + 1) = ∅ := by ext j; simp
        simp [this]
      · have hik' : i < k := by omega
        rw [ed, near i hik', upd_ne _ _ hik, I.defect i hik']
        have : Finset.Ioo i (k + 1) = insert k (Finset.Ioo i k) := by ext j; simp; omega
        rw [this, Finset.sum_insert (by simp), ex, upd_same, neg_add_rev, sub_eq_add_neg]
        congr 2
        refine Finset.sum_congr rfl fun j hj => ?_
        rw [upd_ne _ _ (by have := (Finset.mem_Ioo.1 hj).2; omega)]

/-- `presmooth` succeeds if the diagonal blocks are invertible. -/
theorem presmooth_ok (β : BlockSolve B X X) (A : SpMat B) (hS : A.Sorted) (hD : A.HasDiag) (hI : A.DiagInvertible β.act) (b x d : Nat → X) :
    ∃ s, presmooth β A b x d = .ok s := by
  unfold presmooth
  suffices h : ∀ k, k ≤ A.n → ∃ s, forRangeM k (preRow β A b) (x, d) = .ok s from h A.n (le_refl _)
  intro k
  induction k with
  | zero => intro _; exact ⟨_, rfl⟩
  | succ k ih =>
    intro hk
    obtain ⟨s, hs⟩ := ih (by omega)
    obtain ⟨a, ha⟩ := hD k (by omega)
    obtain ⟨v, hv⟩ := (solveLoc_accepts β).ok a (s.1 k) (b k - A.partSum β.act (· < k) s.1 k) (hI k (by omega) a ha)
    exact ⟨_, by rw [forRangeM_succ, hs, Res.ok_bind, preRow_ok β A b (hS k (by omega)) ha, hv, Res.ok_bind]⟩

theorem postRow_ok (β : BlockSolve B X X) (A : SpMat B) (b : Nat → X) {i : Nat} (hS : (A.row i).Asc) {a : B} (ha : (A.row i).Stores i a)
    (s : (Nat → X) × (Nat → X)) : postRow β A b i s =
      (solveLoc β a (s.1 i) (b i - A.partSum β.act (i < ·) s.1 i - A.partSum β.act (· < i) s.1 i) >>= fun y =>
        .ok (upd s.1 i y, upd s.2 i (A.partSum β.act (· < i) s.1 i))) := by
  unfold postRow
  have sp := row_split hS ha
  have e1 : (A.row i).reverse = ((A.row i).filter fun e => decide (i < e.1)).reverse ++ (i, a) :: ((A.row i).filter fun e => decide (e.1 < i)).reverse := by
    conv_lhs => rw [sp]
    simp
  have d1 : (A.row i).reverse.dropWhile (fun e => decide (i < e.1)) = (i, a) :: ((A.row i).filter fun e => decide (e.1 < i)).reverse := by
    rw [e1, List.dropWhile_append_of_pos]
    · simp
    · intro e he
      simpa using (List.mem_filter.1 (List.mem_reverse.1 he)).2
  have t1 : (A.row i).reverse.takeWhile (fun e => decide (i < e.1)) = ((A.row i).filter fun e => decide (i < e.1)).reverse := by
    rw [e1, List.takeWhile_append_of_pos]
    · simp
    · intro e he
      simpa using (List.mem_filter.1 (List.mem_reverse.1 he)).2
  have uu : ∀ (f : Nat → X) (u v : X), upd (upd f i u) i v = upd f i v := by
    intro f u v; funext k; by_cases h : k = i <;> simp [upd, h]
  rw [d1, t1]
  simp only [if_true, residual_eq, upd_same, uu, List.map_reverse, List.sum_reverse]
  have : ∀ u v : X, u - (u - v) = v := fun u v => by abel
  simp only [this]
  rfl

/-- `presmooth` computes the forward Gauss-Seidel sweep from zero, whatever `x` was. -/
theorem presmooth_eq_bsorf {K : Type} [Ring K] [Module K X] (β : BlockSolve B X X) (A : SpMat B) (hS : A.Sorted) (hD : A.HasDiag)
    (hI : A.DiagInvertible β.act) (b x d y : Nat → X) (s : (Nat → X) × (Nat → X)) (h : presmooth β A b x d = .ok s)
    (hy : bsorf β.act (solveLoc β) (1 : K) A b 0 = .ok y) : ∀ i, i < A.n → s.1 i = y i := by
  have I := presmooth_inv β A hS hD b x d A.n (le_refl _) s h
  have G := C25_bsorf (K := K) β 1 (by simp) A hS hD b 0 y hy
  intro i
  induction i using Nat.strong_induction_on with
  | _ i ih =>
    intro hi
    obtain ⟨a, ha⟩ := hD i hi
    apply (hI i hi a ha).1
    have e1 := I.solved i hi a ha
    have e2 := G i hi a ha
    have z : A.partSum β.act (fun j => ¬ j < i) 0 i = 0 := by simp [SpMat.partSum]
    rw [z, sub_zero, one_smul, Pi.zero_apply, sub_zero] at e2
    rw [e1, e2]
    congr 1
    exact partSum_congr β.act A (· < i) i fun j hj => ih j hj (by omega)

/-- and the true defect, if `a_ij = a_ji`. -/
theorem presmooth_defect (β : BlockSolve B X X) (A : SpMat B) (hS : A.Sorted) (hD : A.HasDiag) (hQ : A.Square)
    (hB : A.BlockSymmetric β.act) (b x d : Nat → X) (s : (Nat → X) × (Nat → X)) (h : presmooth β A b x d = .ok s) :
    ∀ i, i < A.n → s.2 i = b i - A.apply β.act s.1 i := by
  have I := presmooth_inv β A hS hD b x d A.n (le_refl _) s h
  intro i hi
  obtain ⟨a, ha⟩ := hD i hi
  rw [apply_split β.act A (hS i hi) ha, I.solved i hi a ha, I.defect i hi, partSum_eq_sum β.act A (i < ·) A.n s.1 i (hQ i hi)]
  have : (Finset.range A.n).filter (i < ·) = Finset.Ioo i A.n := by ext j; simp; omega
  rw [this]
  have e : ∑ j ∈ Finset.Ioo i A.n, A.blockAct β.act j i (s.1 j) = ∑ j ∈ Finset.Ioo i A.n, A.blockAct β.act i j (s.1 j) :=
    Finset.sum_congr rfl fun j hj => by
      have := Finset.mem_Ioo.1 hj
      exact hB j i this.2 hi (by omega) _
  rw [e]
  abel

theorem presmooth_keep (β : BlockSolve B X X) (A : SpMat B) (hS : A.Sorted) (hD : A.HasDiag) (b x d : Nat → X)
    (s : (Nat → X) × (Nat → X)) (h : presmooth β A b x d = .ok s) : ∀ i, A.n ≤ i → s.1 i = x i ∧ s.2 i = d i :=
  (presmooth_inv β A hS hD b x d A.n (le_refl _) s h).keep

/-- `postsmooth` computes the backward Gauss-Seidel sweep from `x`. -/
theorem postsmooth_eq_bsorb {K : Type} [Ring K] [Module K X] (β : BlockSolve B X X) (A : SpMat B) (hS : A.Sorted) (hD : A.HasDiag)
    (hI : A.DiagInvertible β.act) (b x d y : Nat → X) (hy : bsorb β.act (solveLoc β) (1 : K) A b x = .ok y) :
    ∃ d', postsmooth β A b x d = .ok (y, d') ∧ (∀ i, A.n ≤ i → d' i = d i) ∧ (∀ i, i < A.n → d' i = A.partSum β.act (· < i) x i) := by
  unfold bsorb at hy
  rw [Res.bind_eq_ok] at hy
  obtain ⟨s, hs, e⟩ := hy
  injection e with e
  suffices H : ∀ k, k ≤ A.n → ∀ (z : Nat → X) (v : X) (d : Nat → X), (∀ i, i < k → z i = x i) →
      forDownM k (sorRow β.act (solveLoc β) (1 : K) A b) (z, v) = .ok s →
      ∃ d', forDownM k (postRow β A b) (z, d) = .ok (y, d') ∧ (∀ i, k ≤ i → d' i = d i) ∧
        (∀ i, i < k → d' i = A.partSum β.act (· < i) x i) by
    exact H A.n (le_refl _) x (x 0) d (fun _ _ => rfl) hs
  intro k
  induction k with
  | zero =>
    intro _ z v d _ h
    rw [forDownM_zero] at h
    injection h with h
    subst h
    exact ⟨d, by rw [forDownM_zero]; rw [← e], fun _ _ => rfl, fun i hi => by omega⟩
  | succ k ih =>
    intro hk z v d hz h
    obtain ⟨a, ha⟩ := hD k (by omega)
    rw [forDownM_succ, Res.bind_eq_ok] at h
    obtain ⟨t, h1, h⟩ := h
    rw [sorRow_ok β.act _ 1 A b (hS k (by omega)) ha, Res.bind_eq_ok] at h1
    obtain ⟨u, hu, h1⟩ := h1
    injection h1 with h1
    subst h1
    have hb := hI k (by omega) a ha
    have hu := solveLoc_ok β hu
    have row : postRow β A b k (z, d) = .ok (upd z k (z k + (1 : K) • u), upd d k (A.partSum β.act (· < k) x k)) := by
      rw [postRow_ok β A b (hS k (by omega)) ha]
      have : solveLoc β a (z k) (b k - A.partSum β.act (k < ·) z k - A.partSum β.act (· < k) z k) = .ok (z k + (1 : K) • u) := by
        unfold solveLoc
        rw [(β.solve_iff a _ (z k + (1 : K) • u)).2 ⟨hb, ?_⟩]
        rw [one_smul, map_add, hu, apply_split β.act A (hS k (by omega)) ha]
        abel
      rw [this, Res.ok_bind, partSum_congr β.act A (· < k) k (x := z) (y := x) fun j hj => hz j (by omega)]
    obtain ⟨d', hd, k1, k2⟩ := ih (by omega) (upd z k (z k + (1 : K) • u)) u (upd d k (A.partSum β.act (· < k) x k))
      (fun i hi => by rw [upd_ne _ _ (by omega)]; exact hz i (by omega)) h
    refine ⟨d', by rw [forDownM_succ, row, Res.ok_bind, hd], fun i hi => ?_, fun i hi => ?_⟩
    · rw [k1 i (by omega), upd_ne _ _ (by omega)]
    · by_cases hik : i = k
      · subst hik; rw [k1 i (le_refl _), upd_same]
      · exact k2 i (by omega)

end FastAmg
end Istl
