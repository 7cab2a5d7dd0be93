import Verif.Spec.Bicgstab
import Mathlib.Tactic.Module
import Mathlib.Tactic.LinearCombination
import Mathlib.Tactic.FieldSimp
import Mathlib.LinearAlgebra.FiniteDimensional.Lemmas

/-!
# BiCGSTAB and the biconjugate gradient method
-/

namespace Istl
namespace Solver

variable {K Rl X : Type} [Field K] [AddCommGroup X] [Module K X] {T : X →ₗ[K] X}

/-- Leading coefficient of the stabilising polynomial. -/
def lead : List K → K
  | [] => 1
  | w :: ws => -w * lead ws

theorem stab_cons (w : K) (ws : List K) (v : X) : stab T (w :: ws) v = stab T ws v - w • T (stab T ws v) := rfl

theorem stab_T (ws : List K) (v : X) : stab T ws (T v) = T (stab T ws v) := by
  induction ws with
  | nil => rfl
  | cons w ws ih => rw [stab_cons, stab_cons, ih, map_sub, map_smul]

/-- A functional that annihilates the lower Krylov vectors sees only the leading term. -/
theorem stab_lead (f : X →ₗ[K] K) (ws : List K) : ∀ v : X, (∀ j, j < ws.length → f ((T ^ j) v) = 0) →
    f (stab T ws v) = lead ws * f ((T ^ ws.length) v) := by
  induction ws with
  | nil => intro v _; change f v = 1 * f v; rw [one_mul]
  | cons w ws ih =>
    intro v hv
    have e : stab T (w :: ws) v = stab T ws (v - w • T v) := by rw [stab_cons, map_sub, map_smul, stab_T]
    have pw : ∀ j, f ((T ^ j) (v - w • T v)) = f ((T ^ j) v) - w * f ((T ^ (j + 1)) v) := by
      intro j
      rw [map_sub, map_sub, map_smul, map_smul, smul_eq_mul, pow_succ]
      rfl
    rw [e, ih]
    · rw [pw, hv ws.length (by simp)]
      change lead ws * (0 - w * _) = -w * lead ws * _
      rw [List.length_cons]
      ring
    · intro j hj
      rw [pw, hv j (by simp; omega), hv (j + 1) (by simp; omega)]
      ring

variable [Mul Rl] [Zero Rl] {E : Env K Rl X} {φ : X → X →ₗ[K] K} {A B : X →ₗ[K] X}

/-- Everything known at the head of pass `k`: residuals `R 0, ..., R k` and the previous direction `P` of the biconjugate gradient method. -/
structure BiInv (φ : X → X →ₗ[K] K) (A B : X →ₗ[K] X) (r0 : X) (k : Nat) (s : BiSt K X Rl) (ws : List K) (R : Nat → X) (P : X) : Prop where
  len : ws.length = k
  rt : s.rt = r0
  r : s.r = stab (A ∘ₗ B) ws (R k)
  start : R 0 = r0
  res : ∀ i, i ≤ k → IsBicgResidual (A ∘ₗ B) r0 (φ r0) i (R i)
  dir : ∀ j, j + 1 < k → φ r0 (((A ∘ₗ B) ^ (j + 1)) P) = 0
  memP : P ∈ Submodule.span K {y | ∃ j, j < k ∧ y = ((A ∘ₗ B) ^ j) r0}
  old : ∀ w ws', ws = w :: ws' → s.omega = w ∧ s.p = stab (A ∘ₗ B) ws' P ∧ s.v = A (B s.p) ∧ lead ws' ≠ 0 ∧
    s.rho = lead ws' * φ r0 (((A ∘ₗ B) ^ ws'.length) (R ws'.length)) ∧
    s.alpha * φ r0 (((A ∘ₗ B) ^ k) P) = φ r0 (((A ∘ₗ B) ^ ws'.length) (R ws'.length))
  nonzero : ∀ i, i + 1 < k → φ r0 (((A ∘ₗ B) ^ i) (R i)) ≠ 0

/-- What a successful first half step does. -/
theorem biFirst_some (h : BiExact E φ A B) {k : Nat} {s s' : BiSt K X Rl} {rho : K} (hf : biFirst E k s = some (s', rho))
    (hz : E.isZero s.norm = false) :
    s.rho ≠ 0 ∧ s.omega ≠ 0 ∧ rho = φ s.rt s.r ∧ s'.rt = s.rt ∧ s'.v = A (B s'.p) ∧ φ s.rt s'.v ≠ 0 ∧ s'.alpha = rho / φ s.rt s'.v ∧
    s'.r = s.r - s'.alpha • s'.v ∧ s'.x = s.x + s'.alpha • B s'.p ∧ s'.norm = E.norm s'.r ∧
    s'.p = (if k = 0 then s.r else ((rho / s.rho) * (s.alpha / s.omega)) • (s.p - s.omega • s.v) + s.r) := by
  unfold biFirst at hf
  dsimp only at hf
  cases h1 : E.lt E.eps (E.abs s.rho) with
  | false => rw [h1, if_pos (by rfl)] at hf; cases hf
  | true =>
  cases h2 : E.lt E.eps (E.abs s.omega) with
  | false => rw [h1, h2, if_neg (by decide), if_pos (by rfl)] at hf; cases hf
  | true =>
  rw [h1, h2, if_neg (by decide), if_neg (by decide)] at hf
  cases h3 : E.lt (E.abs (E.dot s.rt (E.op (E.prec (2 * k) (biDir E k s (E.dot s.rt s.r)))))) E.eps with
  | true => rw [h3, if_pos rfl] at hf; cases hf
  | false =>
  rw [h3, if_neg (by decide)] at hf
  have e := Option.some.inj hf
  have e1 := (Prod.mk.inj e).1
  have e2 := (Prod.mk.inj e).2
  subst e2
  subst e1
  dsimp only
  have hne := h.notBelow _ h3
  rw [h.dot, h.op, h.prec] at hne
  refine ⟨h.above _ h1, h.above _ h2, h.dot _ _, rfl, ?_, ?_, ?_, ?_, ?_, rfl, ?_⟩
  · rw [h.op, h.prec]
  · rw [h.op, h.prec]; exact hne
  · rw [if_neg (by rw [hz]; decide), h.dot, h.dot]
  · rw [neg_smul, ← sub_eq_add_neg]
  · rw [h.prec]
  · unfold biDir
    dsimp only
    by_cases hk : k = 0
    · rw [if_pos hk, if_pos hk]
    · rw [if_neg hk, if_neg hk, if_neg (by rw [hz]; decide), neg_smul, ← sub_eq_add_neg]

variable {r0 : X}

/-- The new direction. -/
theorem bi_dir (h : BiExact E φ A B) {k : Nat} {s s' : BiSt K X Rl} {ws : List K} {R : Nat → X} {P : X} {rho : K}
    (I : BiInv φ A B r0 k s ws R P) (hz : E.isZero s.norm = false) (hf : biFirst E k s = some (s', rho)) :
    ∃ P', s'.p = stab (A ∘ₗ B) ws P' ∧ P' ∈ Submodule.span K {y | ∃ j, j < k + 1 ∧ y = ((A ∘ₗ B) ^ j) r0} ∧
      (∀ j, j < k → φ r0 (((A ∘ₗ B) ^ (j + 1)) P') = 0) ∧ lead ws ≠ 0 ∧ rho = lead ws * φ r0 (((A ∘ₗ B) ^ k) (R k)) ∧
      (∀ i, i < k → φ r0 (((A ∘ₗ B) ^ i) (R i)) ≠ 0) := by
  obtain ⟨f1, f2, f3, -, -, -, -, -, -, -, f11⟩ := biFirst_some h hf hz
  have erho : rho = lead ws * φ r0 (((A ∘ₗ B) ^ k) (R k)) := by
    rw [f3, I.rt, I.r, stab_lead _ _ _ (by rw [I.len]; exact (I.res k (le_refl _)).orth), I.len]
  have memR : R k ∈ Submodule.span K {y | ∃ j, j < k + 1 ∧ y = ((A ∘ₗ B) ^ j) r0} := by
    have h1 : r0 ∈ Submodule.span K {y | ∃ j, j < k + 1 ∧ y = ((A ∘ₗ B) ^ j) r0} := Submodule.subset_span ⟨0, by omega, rfl⟩
    have h2 : R k - r0 ∈ Submodule.span K {y | ∃ j, j < k + 1 ∧ y = ((A ∘ₗ B) ^ j) r0} :=
      Submodule.span_mono (by rintro y ⟨j, hj, rfl⟩; exact ⟨j + 1, by omega, rfl⟩) (I.res k (le_refl _)).search
    have := Submodule.add_mem _ h2 h1
    rwa [sub_add_cancel] at this
  cases ws with
  | nil =>
    have hk : k = 0 := I.len.symm
    subst hk
    rw [if_pos rfl] at f11
    exact ⟨R 0, by rw [f11, I.r], memR, fun j hj => absurd hj (by omega), one_ne_zero, erho, fun i hi => absurd hi (by omega)⟩
  | cons w ws =>
    obtain ⟨k, rfl⟩ : ∃ l, k = l + 1 := ⟨ws.length, I.len.symm⟩
    have hl : ws.length = k := by have := I.len; simpa using this
    obtain ⟨o1, o2, o3, o4, o5, o6⟩ := I.old w ws rfl
    rw [hl] at o5 o6
    have hw : w ≠ 0 := by rw [← o1]; exact f2
    rw [if_neg (by omega)] at f11
    have hs : φ r0 (((A ∘ₗ B) ^ k) (R k)) ≠ 0 := by
      intro h0; rw [h0, mul_zero] at o5; exact f1 o5
    have hlead : lead (w :: ws) ≠ 0 := mul_ne_zero (neg_ne_zero.2 hw) o4
    refine ⟨R (k + 1) + ((rho / s.rho) * (s.alpha / s.omega)) • P, ?_, ?_, ?_, hlead, erho, ?_⟩
    · rw [f11, I.r, map_add, map_smul, stab_cons w ws P, ← o2, o3, o1]
      rw [add_comm]
      rfl
    · exact Submodule.add_mem _ memR (Submodule.smul_mem _ _ (Submodule.span_mono (by
        rintro y ⟨j, hj, rfl⟩; exact ⟨j, by omega, rfl⟩) I.memP))
    · intro j hj
      rw [map_add, map_add, map_smul, map_smul, smul_eq_mul]
      by_cases hjk : j = k
      · subst hjk
        rw [o5, o1, erho]
        have e : φ r0 (((A ∘ₗ B) ^ (j + 1)) P) * s.alpha = φ r0 (((A ∘ₗ B) ^ j) (R j)) := by rw [mul_comm]; exact o6
        change _ + (-w * lead ws * _) / _ * (s.alpha / w) * _ = 0
        generalize φ r0 (((A ∘ₗ B) ^ (j + 1)) (R (j + 1))) = a at *
        generalize φ r0 (((A ∘ₗ B) ^ (j + 1)) P) = c at *
        generalize φ r0 (((A ∘ₗ B) ^ j) (R j)) = q at *
        field_simp
        rw [← e]
        ring
      · rw [(I.res (k + 1) (le_refl _)).orth (j + 1) (by omega), I.dir j (by omega)]
        ring
    · intro i hi
      rcases Nat.lt_or_ge i k with hlt | hge
      · exact I.nonzero i (by omega)
      · rw [show i = k by omega]; exact hs

/-- One pass. -/
theorem bi_pass (h : BiExact E φ A B) {k : Nat} {s s' : BiSt K X Rl} {ws : List K} {R : Nat → X} {P : X} {rho : K}
    (I : BiInv φ A B r0 k s ws R P) (hz : E.isZero s.norm = false) (hf : biFirst E k s = some (s', rho)) :
    ∃ R' P', s'.r = stab (A ∘ₗ B) ws (R' (k + 1)) ∧ (∀ i, i < k → φ r0 (((A ∘ₗ B) ^ i) (R i)) ≠ 0) ∧
      BiInv φ A B r0 (k + 1) (biSecond E k s' rho) ((biSecond E k s' rho).omega :: ws) R' P' := by
  obtain ⟨P', p1, p2, p3, p4, p5, p6⟩ := bi_dir h I hz hf
  obtain ⟨-, -, -, f4, f5, f6, f7, f8, -, -, -⟩ := biFirst_some h hf hz
  rw [I.rt] at f4 f6 f7
  have hv : s'.v = stab (A ∘ₗ B) ws ((A ∘ₗ B) P') := by rw [stab_T, f5, p1]; rfl
  have hh : φ r0 s'.v = lead ws * φ r0 (((A ∘ₗ B) ^ (k + 1)) P') := by
    rw [hv, stab_lead, I.len]
    · rw [pow_succ]; rfl
    · intro j hj
      have := p3 j (by have := I.len; omega)
      rw [pow_succ] at this
      exact this
  have key : s'.alpha * φ r0 (((A ∘ₗ B) ^ (k + 1)) P') = φ r0 (((A ∘ₗ B) ^ k) (R k)) := by
    rw [f7, p5, hh]
    rw [hh] at f6
    have := right_ne_zero_of_mul f6
    field_simp
  have hr : s'.r = stab (A ∘ₗ B) ws (R k - s'.alpha • (A ∘ₗ B) P') := by
    rw [f8, I.r, hv, map_sub, map_smul]
  obtain ⟨R', hR1, hR⟩ : ∃ R' : Nat → X, R' (k + 1) = R k - s'.alpha • (A ∘ₗ B) P' ∧ ∀ i, i ≤ k → R' i = R i :=
    ⟨fun i => if i = k + 1 then R k - s'.alpha • (A ∘ₗ B) P' else R i, if_pos rfl, fun i hi => if_neg (by omega)⟩
  refine ⟨R', P', by rw [hR1, hr], p6, ?_⟩
  refine ⟨by simp [I.len], by rw [← f4]; rfl, ?_, by rw [hR 0 (by omega), I.start], ?_, fun j hj => p3 j (by omega), p2, ?_, ?_⟩
  · rw [hR1, stab_cons, ← hr]
    change s'.r + (-(biSecond E k s' rho).omega) • E.op (E.prec _ s'.r) = _
    rw [h.op, h.prec, neg_smul, ← sub_eq_add_neg]
    rfl
  · intro i hi
    rcases Nat.lt_or_ge i (k + 1) with hlt | hge
    · rw [hR i (by omega)]; exact I.res i (by omega)
    · have hik : i = k + 1 := by omega
      subst hik
      rw [hR1]
      constructor
      · rw [sub_right_comm]
        refine Submodule.sub_mem _ (Submodule.span_mono (by rintro y ⟨j, hj, rfl⟩; exact ⟨j, by omega, rfl⟩) (I.res k (le_refl _)).search)
          (Submodule.smul_mem _ _ ?_)
        have im : ∀ v ∈ Submodule.span K {y | ∃ j, j < k + 1 ∧ y = ((A ∘ₗ B) ^ j) r0},
            (A ∘ₗ B) v ∈ Submodule.span K {y | ∃ j, j < k + 1 ∧ y = ((A ∘ₗ B) ^ (j + 1)) r0} := by
          intro v hv
          induction hv using Submodule.span_induction with
          | mem y hy => obtain ⟨j, hj, rfl⟩ := hy; exact Submodule.subset_span ⟨j, hj, by rw [pow_succ']; rfl⟩
          | zero => rw [map_zero]; exact Submodule.zero_mem _
          | add y z _ _ hy hz => rw [map_add]; exact Submodule.add_mem _ hy hz
          | smul c y _ hy => rw [map_smul]; exact Submodule.smul_mem _ _ hy
        exact im P' p2
      · intro j hj
        have e : ((A ∘ₗ B) ^ j) ((A ∘ₗ B) P') = ((A ∘ₗ B) ^ (j + 1)) P' := by rw [pow_succ]; rfl
        rw [map_sub, map_sub, map_smul, map_smul, smul_eq_mul, e]
        rcases Nat.lt_or_ge j k with hlt | hge
        · rw [p3 j hlt, (I.res k (le_refl _)).orth j hlt, mul_zero, sub_zero]
        · rw [show j = k by omega, key, sub_self]
  · intro w ws' hw
    obtain ⟨rfl, rfl⟩ := List.cons.inj hw
    rw [I.len, hR k (le_refl _)]
    exact ⟨rfl, p1, f5, p4, p5, key⟩
  · intro i hi
    rw [hR i (by omega)]
    exact p6 i (by omega)

theorem bi_inv (h : BiExact E φ A B) (x : X) (d : Rl) {k : Nat} {s : BiSt K X Rl} {ws : List K}
    (hr : BiReach E (biStart x r0 d) k s ws) : ∃ R P, BiInv φ A B r0 k s ws R P := by
  induction hr with
  | start =>
    refine ⟨fun _ => r0, 0, rfl, rfl, rfl, rfl, ?_, fun j hj => by omega, Submodule.zero_mem _, fun w ws' hw => (by cases hw), fun i hi => by omega⟩
    intro i hi
    exact ⟨by rw [sub_self]; exact Submodule.zero_mem _, fun j hj => by omega⟩
  | pass _ hz hf ih =>
    obtain ⟨R, P, I⟩ := ih
    obtain ⟨R', P', -, -, I'⟩ := bi_pass h I hz hf
    exact ⟨R', P', I'⟩

/-- In dimension `n` there are at most `n` passes from a non-zero residual followed by a successful first half step. -/
theorem bi_finite [Module.Finite K X] {k : Nat} {R : Nat → X} (ho : ∀ i, i ≤ k → ∀ j, j < i → φ r0 (((A ∘ₗ B) ^ j) (R i)) = 0)
    (hn : ∀ i, i < k → φ r0 (((A ∘ₗ B) ^ i) (R i)) ≠ 0) (hk : R k ≠ 0) : k < Module.finrank K X := by
  have li : LinearIndependent K (fun i : Fin (k + 1) => R i) := by
    rw [Fintype.linearIndependent_iff]
    intro c hc
    have low : ∀ m, m < k → ∀ hm : m < k + 1, c ⟨m, hm⟩ = 0 := by
      intro m
      induction m using Nat.strong_induction_on with
      | _ m ih =>
      intro hmk hm
      have := congrArg (fun v => φ r0 (((A ∘ₗ B) ^ m) v)) hc
      simp only [map_sum, map_smul, map_zero, smul_eq_mul] at this
      rw [Finset.sum_eq_single ⟨m, hm⟩] at this
      · exact (mul_eq_zero.1 this).resolve_right (hn m hmk)
      · rintro ⟨i, hi⟩ - hne
        rcases Nat.lt_trichotomy i m with h1 | h1 | h1
        · rw [ih i h1 (by omega) hi, zero_mul]
        · exact absurd (Fin.ext h1) hne
        · rw [ho i (by omega) m h1, mul_zero]
      · intro hni; exact absurd (Finset.mem_univ _) hni
    rintro ⟨i, hi⟩
    rcases Nat.lt_or_ge i k with hlt | hge
    · exact low i hlt hi
    · have hik : i = k := by omega
      subst hik
      rw [Finset.sum_eq_single ⟨i, hi⟩] at hc
      · exact (smul_eq_zero.1 hc).resolve_right hk
      · rintro ⟨j, hj⟩ - hne
        rw [low j (by by_contra hge; exact hne (Fin.ext (by dsimp only; omega))) hj, zero_smul]
      · intro hni; exact absurd (Finset.mem_univ _) hni
  have := li.fintype_card_le_finrank
  rw [Fintype.card_fin] at this
  omega

end Solver
end Istl
