import Verif.Spec.Ildl
import Verif.Lemmas.Ilu

/-! Helper lemmas for the incomplete LDL^T factorisation. -/

namespace Istl
namespace Ildl
open Ilu Gsetc
variable {R : Type} [Ring R]

theorem IsTranspose.zero {tr : R → R} (h : IsTranspose tr) : tr 0 = 0 := by
  have := h.add 0 0
  rw [add_zero] at this
  exact left_eq_add.mp this

theorem val_append_left {r s : Row R} {k : Nat} (h : ∀ e ∈ s, e.1 ≠ k) : Row.val (r ++ s) k = Row.val r k := by
  unfold Row.val
  rw [List.find?_append]
  have : s.find? (fun e => e.1 == k) = none := by
    rw [List.find?_eq_none]; intro e he; simpa using h e he
  rw [this, Option.or_none]

/-- The merge loop computes the product of the two partial rows. -/
theorem subBCT_eq (tr : R → R) (h0 : tr 0 = 0) (j : Nat) (ik jk : List (Nat × R)) (acc : R) (hi : Row.Asc ik) (hj : Row.Asc jk)
    (hik : ∀ e ∈ ik, e.1 < j) (hjk : ∃ e ∈ jk, j ≤ e.1) :
    subBCT tr j ik jk acc = .ok (acc - (ik.map fun e => e.2 * tr (Row.val jk e.1)).sum) := by
  fun_induction subBCT tr j ik jk acc with
  | case1 => simp
  | case2 acc e ik => obtain ⟨e, he, -⟩ := hjk; simp at he
  | case3 b ik k c jk acc hlt ih =>
    rw [asc_cons] at hi hj
    obtain ⟨x, hx, hxj⟩ := hjk
    have hx' : x ∈ jk := by
      rcases List.mem_cons.mp hx with rfl | hx
      · simp at hxj; omega
      · exact hx
    rw [ih hi.2 hj.2 (fun e he => hik e (by simp [he])) ⟨x, hx', hxj⟩, List.map_cons, List.sum_cons, val_cons_eq, ← sub_sub]
    congr 3
    apply List.map_congr_left
    intro e he
    rw [val_cons_ne _ _ (by have := hi.1 e he; simp at this; omega)]
  | case4 k b ik k' c jk acc hlt hne hkk ih =>
    have hj' := hj
    rw [asc_cons] at hi hj
    rw [ih hi.2 hj' (fun e he => hik e (by simp [he])) hjk, List.map_cons, List.sum_cons]
    have : Row.val ((k', c) :: jk) k = 0 := by
      apply val_zero_of_lt
      intro e he
      rcases List.mem_cons.mp he with rfl | he
      · exact hkk
      · have := hj.1 e he; simp at this; omega
    rw [this, h0, mul_zero, zero_add]
  | case5 k b ik k' c jk acc hlt hne hkk ih =>
    have hi' := hi
    rw [asc_cons] at hi hj
    obtain ⟨x, hx, hxj⟩ := hjk
    have hx' : x ∈ jk := by
      rcases List.mem_cons.mp hx with rfl | hx
      · simp at hxj; omega
      · exact hx
    rw [ih hi' hj.2 hik ⟨x, hx', hxj⟩]
    congr 3
    apply List.map_congr_left
    intro e he
    rw [val_cons_ne]
    rcases List.mem_cons.mp he with rfl | he
    · simp; omega
    · have := hi.1 e he; simp at this; omega
  | case6 k b ik k' c jk acc hlt =>
    rw [asc_cons] at hj
    have : ∀ e ∈ (k, b) :: ik, e.2 * tr (Row.val ((k', c) :: jk) e.1) = 0 := by
      intro e he
      have : Row.val ((k', c) :: jk) e.1 = 0 := by
        apply val_zero_of_lt
        have h1 := hik e he
        intro x hx
        rcases List.mem_cons.mp hx with rfl | hx
        · simp; omega
        · have := hj.1 x hx; simp at this; omega
      rw [this, h0, mul_zero]
    rw [List.map_congr_left this]
    simp

/-- sum over a row of passed entries as a sum over columns -/
theorem done_sum {done : Row R} (h : done.Asc) {j : Nat} (hd : ∀ e ∈ done, e.1 < j) (f : Nat → R) :
    (done.map fun e => e.2 * f e.1).sum = ∑ k ∈ Finset.range j, done.val k * f k :=
  (Row.sum_val done h j hd (fun k b => b * f k) (by intro k; simp)).symm

/-- The first inner loop never fails on a row with an entry at or right of the diagonal, and computes the `X = L D` of the
triangular recursion. -/
theorem phase1_spec (tr : R → R) (h0 : tr 0 = 0) (rows : Nat → Row R) (i : Nat)
    (hrows : ∀ j, j < i → (rows j).Asc ∧ ∃ d, (j, d) ∈ rows j) :
    ∀ (rest done : List (Nat × R)), Row.Asc rest → Row.Asc done → (∀ e ∈ done, ∀ x ∈ rest, e.1 < x.1) → (∃ e ∈ rest, i ≤ e.1) →
    ∃ X, phase1 tr rows i done rest = .ok (done ++ X, rest.filter fun e => decide (i ≤ e.1)) ∧
      X.map Prod.fst = (rest.filter fun e => decide (e.1 < i)).map Prod.fst ∧ Row.Asc (done ++ X) ∧
      ∀ j a, (j, a) ∈ rest → j < i →
        Row.val (done ++ X) j = a - ∑ k ∈ Finset.range j, Row.val (done ++ X) k * tr ((rows j).val k) := by
  intro rest
  induction rest with
  | nil => intro done _ _ _ h; simp at h
  | cons e rest ih =>
    obtain ⟨j, a⟩ := e
    intro done hr hd hlt hex
    have hr' := hr
    rw [asc_cons] at hr
    by_cases hji : j < i
    · have hdj : ∀ e ∈ done, e.1 < j := fun e he => hlt e he (j, a) (by simp)
      obtain ⟨ha, d, hdd⟩ := hrows j hji
      have hs := subBCT_eq tr h0 j done (rows j) a hd ha hdj ⟨(j, d), hdd, le_refl _⟩
      set a' := a - (done.map fun e => e.2 * tr ((rows j).val e.1)).sum with ha'
      have hd1 : Row.Asc (done ++ [(j, a')]) := by
        unfold Row.Asc
        rw [List.map_append, List.pairwise_append]
        refine ⟨hd, by simp, ?_⟩
        intro x hx y hy
        obtain ⟨e, he, rfl⟩ := List.mem_map.mp hx
        simp only [List.map_cons, List.map_nil, List.mem_singleton] at hy
        subst hy; exact hdj e he
      obtain ⟨X, h1, h2, h3, h4⟩ := ih (done ++ [(j, a')]) hr.2 hd1
        (by
          intro e he x hx
          rcases List.mem_append.mp he with he | he
          · exact hlt e he x (by simp [hx])
          · rw [List.mem_singleton] at he; subst he; exact hr.1 x hx)
        (by
          obtain ⟨x, hx, hxi⟩ := hex
          rcases List.mem_cons.mp hx with rfl | hx
          · simp at hxi; omega
          · exact ⟨x, hx, hxi⟩)
      refine ⟨(j, a') :: X, ?_, ?_, by simpa using h3, ?_⟩
      · rw [phase1, if_pos hji, hs, Res.ok_bind, h1, List.filter_cons_of_neg (by simpa using hji)]
        simp
      · rw [List.filter_cons_of_pos (by simpa using hji), List.map_cons, List.map_cons, h2]
      · have hX : done ++ (j, a') :: X = done ++ [(j, a')] ++ X := by simp
        intro j' a'' hmem hj'
        rw [hX]
        rcases List.mem_cons.mp hmem with heq | hmem
        · obtain ⟨rfl, rfl⟩ := Prod.mk.inj heq
          have hv : Row.val (done ++ [(j', a')] ++ X) j' = a' := Row.val_of_mem h3 (by simp)
          rw [hv, ha', done_sum hd hdj (fun k => tr ((rows j').val k))]
          congr 1
          apply Finset.sum_congr rfl
          intro k hk
          rw [Finset.mem_range] at hk
          congr 1
          rw [List.append_assoc, val_append_left]
          intro e he
          rw [List.append_assoc] at h3
          unfold Row.Asc at h3
          rw [List.map_append, List.pairwise_append] at h3
          rcases List.mem_append.mp he with he | he
          · rw [List.mem_singleton] at he; subst he; simp; omega
          · have h5 := h3.2.1
            simp only [List.singleton_append, List.map_cons, List.pairwise_cons] at h5
            have := h5.1 e.1 (List.mem_map_of_mem he)
            omega
        · exact h4 j' a'' hmem hj'
    · refine ⟨[], ?_, ?_, by simpa using hd, ?_⟩
      · rw [phase1, if_neg hji, List.append_nil]
        have : ((j, a) :: rest).filter (fun e => decide (i ≤ e.1)) = (j, a) :: rest := by
          rw [List.filter_eq_self]
          intro e he
          rcases List.mem_cons.mp he with rfl | he
          · simp; omega
          · have := hr.1 e he; simp at this ⊢; omega
        rw [this]
      · have : ((j, a) :: rest).filter (fun e => decide (e.1 < i)) = [] := by
          rw [List.filter_eq_nil_iff]
          intro e he
          rcases List.mem_cons.mp he with rfl | he
          · simp; omega
          · have := hr.1 e he; simp at this ⊢; omega
        rw [this]
      · intro j' a' hmem hj'
        exfalso
        rcases List.mem_cons.mp hmem with heq | hmem
        · obtain ⟨rfl, rfl⟩ := Prod.mk.inj heq; omega
        · have := hr.1 _ hmem; simp at this; omega

theorem phase2_fold (tr : R → R) (rows : Nat → Row R) (dinv : Nat → R) : ∀ (X : List (Nat × R)) (nd : List (Nat × R)) (acc : R),
    (∀ e ∈ X, (rows e.1).Asc ∧ (e.1, dinv e.1) ∈ rows e.1) →
    X.foldlM (phase2 tr rows) (nd, acc) =
      .ok (nd ++ X.map fun e => (e.1, e.2 * dinv e.1), acc - (X.map fun e => e.2 * tr (e.2 * dinv e.1)).sum) := by
  intro X
  induction X with
  | nil => intro nd acc _; simp
  | cons e X ih =>
    intro nd acc h
    obtain ⟨ha, hm⟩ := h e (by simp)
    obtain ⟨q, h1, h2⟩ := find_diag _ ha hm
    have hp : phase2 tr rows (nd, acc) e = .ok (nd ++ [(e.1, e.2 * dinv e.1)], acc - e.2 * tr (e.2 * dinv e.1)) := by
      unfold phase2
      rw [h1, Res.ok_bind]
      simp only [h2, Res.ok_bind]
    rw [List.foldlM_cons, hp, Res.ok_bind, ih _ _ fun e he => h e (by simp [he])]
    simp [sub_sub]

end Ildl
end Istl
