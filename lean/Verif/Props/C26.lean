import Verif.Lemmas.Prec
import Verif.Props.C21
import Verif.Props.C22
import Verif.Props.C23
import Verif.Props.C25

/-! # C26 — stationary preconditioners apply a fixed linear operator -/

namespace Istl
open Gsetc Prec SpMat
variable {R V K : Type} [Ring R] [AddCommGroup V] [Module R V] [CommRing K] [Module K V]

/-- No call of `apply` changes the object: after any history of successful calls, the next call gives what the first one would
have given. -/
theorem C26_history_independent (β : BlockSolve R V V) (tr : R → R) (nid : K → Bool) (P P' : Obj R K)
    (h : List ((Nat → V) × (Nat → V))) (hc : calls β tr nid h P = .ok P') (v d : Nat → V) :
    Prec.apply β tr nid P' v d = Prec.apply β tr nid P v d := by
  have one : ∀ (P : Obj R K) v d s, Prec.apply β tr nid P v d = .ok s → s.1 = P := by
    intro P v d s hs
    unfold Prec.apply at hs
    cases P <;> simp only [Res.bind_eq_ok] at hs <;> first
      | (obtain ⟨_, -, hs⟩ := hs; injection hs with hs; rw [← hs])
      | (injection hs with hs; rw [← hs])
  have : P' = P := by
    induction h generalizing P with
    | nil => injection hc with hc; exact hc.symm
    | cons x h ih =>
      obtain ⟨v, d⟩ := x
      unfold calls at hc
      rw [Res.bind_eq_ok] at hc
      obtain ⟨s, hs, hc⟩ := hc
      rw [one P v d s hs] at hc
      exact ih P hc
  rw [this]

section Linear
variable [SMulCommClass R K V]

/-- Start vector and defect enter every preconditioner linearly: superposition of two calls that return normally. -/
theorem C26_superposition (β : BlockSolve R V V) (hβ : ∀ a (c : K) x, β.act a (c • x) = c • β.act a x) (tr : R → R)
    (nid : K → Bool) (P : Obj R K) (c : K) (v v' d d' r r' : Nat → V) (h : Prec.apply β tr nid P v d = .ok (P, r))
    (h' : Prec.apply β tr nid P v' d' = .ok (P, r')) :
    Prec.apply β tr nid P (c • v + v') (c • d + d') = .ok (P, c • r + r') := by
  have sc : ∀ (n : Nat) (w c : K) (x y : Nat → V), scaleVec n w (c • x + y) = c • scaleVec n w x + scaleVec n w y := by
    intro n w c x y
    funext k
    unfold scaleVec
    by_cases hk : k < n
    · simp [hk, smul_comm w c]
    · simp [hk]
  have fin : ∀ f : (Nat → V) → (Nat → V) → Res (Nat → V), JLin K f → (f d v >>= fun v => Res.ok (P, v)) = .ok (P, r) →
      (f d' v' >>= fun v => Res.ok (P, v)) = .ok (P, r') →
      (f (c • d + d') (c • v + v') >>= fun v => Res.ok (P, v)) = .ok (P, c • r + r') := by
    intro f hf h1 h2
    rw [Res.bind_eq_ok] at h1 h2 ⊢
    obtain ⟨a, ha, ha'⟩ := h1
    obtain ⟨b, hb, hb'⟩ := h2
    injection ha' with ha'; injection hb' with hb'
    injection ha' with _ ha'; injection hb' with _ hb'
    subst ha' hb'
    exact ⟨_, hf c d d' v v' a b ha hb, rfl⟩
  have fin2 : ∀ (f : (Nat → V) → (Nat → V) → Res (Nat → V)) (F : (Nat → V) → (Nat → V)), JLin K f →
      (∀ (c : K) x y, F (c • x + y) = c • F x + F y) → (f d v >>= fun v => Res.ok (P, F v)) = .ok (P, r) →
      (f d' v' >>= fun v => Res.ok (P, F v)) = .ok (P, r') →
      (f (c • d + d') (c • v + v') >>= fun v => Res.ok (P, F v)) = .ok (P, c • r + r') := by
    intro f F hf hF h1 h2
    have e : ∀ d v, (f d v >>= fun v => Res.ok (P, F v)) = ((f d v >>= fun v => Res.ok (F v)) >>= fun v => .ok (P, v)) := by
      intro d v
      cases f d v <;> rfl
    rw [e] at h1 h2 ⊢
    exact fin (fun d v => f d v >>= fun v => .ok (F v)) (hf.map F hF) h1 h2
  have hcond : ∀ (n : Nat) (w : K), ∀ (c : K) (x y : Nat → V), (if nid w then scaleVec n w (c • x + y) else c • x + y) =
      c • (if nid w then scaleVec n w x else x) + (if nid w then scaleVec n w y else y) := by
    intro n w c x y
    by_cases hn : nid w = true
    · simp only [hn, if_true]; exact sc n w c x y
    · simp only [hn, if_false]; rfl
  cases P with
  | ssor A n w =>
    refine fin (fun d v => iterate n (ssorStep β w A d) v) ?_ h h'
    exact JLin.range (g := fun _ d v => ssorStep β w A d v) fun _ => JLin.seq (bsorf_lin β hβ w A) (bsorb_lin β hβ w A)
  | sor A n w => exact fin _ (JLin.range (g := fun _ d v => bsorf β.act (solveLoc β) w A d v) fun _ => bsorf_lin β hβ w A) h h'
  | jac A n w => exact fin _ (JLin.range (g := fun _ d v => dbjac β.act (solveLoc β) w A d v) fun _ => dbjac_lin β hβ w A) h h'
  | dilu A D w => exact fin2 _ (fun v => if nid w then scaleVec A.n w v else v) (diluBacksolve_lin A D) (hcond A.n w) h h'
  | ilu F w => exact fin2 _ (fun v => if nid w then scaleVec F.n w v else v) (iluBacksolve_lin F) (hcond F.n w) h h'
  | iluCRS l u inv w =>
    exact fin2 _ (fun v => if nid w then scaleVec l.nRows w v else v) (crsBacksolve_lin l u inv) (hcond l.nRows w) h h'
  | richardson w =>
    dsimp only [Prec.apply] at h h' ⊢
    injection h with h; injection h' with h'
    injection h with _ h; injection h' with _ h'
    rw [← h, ← h']
    congr 2
    funext k
    simp [smul_comm w c]
  | ildl F w => exact fin2 _ (scaleVec F.n w) (ildlBacksolve_lin tr F true) (sc F.n w) h h'

/-- A preconditioner that returns normally from `v = 0` for every defect is a linear map. -/
theorem linear_of_total (β : BlockSolve R V V) (hβ : ∀ a (c : K) x, β.act a (c • x) = c • β.act a x) (tr : R → R)
    (nid : K → Bool) (P : Obj R K) (ht : ∀ d : Nat → V, ∃ r, Prec.apply β tr nid P 0 d = .ok (P, r)) :
    ∃ M : (Nat → V) →ₗ[K] (Nat → V), ∀ d, Prec.apply β tr nid P 0 d = .ok (P, M d) := by
  choose f hf using ht
  have key : ∀ (c : K) d d', f (c • d + d') = c • f d + f d' := by
    intro c d d'
    have := C26_superposition β hβ tr nid P c 0 0 d d' _ _ (hf d) (hf d')
    rw [smul_zero, add_zero, hf] at this
    injection this with this
    injection this
  have h0 : f 0 = 0 := by
    have := key 1 0 0
    simp only [one_smul, add_zero] at this
    exact left_eq_add.mp this
  let M : (Nat → V) →ₗ[K] (Nat → V) :=
    { toFun := f
      map_add' := fun x y => by have := key 1 x y; simpa using this
      map_smul' := fun c x => by have := key c x 0; simpa [h0] using this }
  exact ⟨M, hf⟩

theorem iterate_total {S : Type} (n : Nat) (f : S → Res S) (hf : ∀ s, ∃ s', f s = .ok s') (s : S) : ∃ s', iterate n f s = .ok s' := by
  unfold iterate
  induction n with
  | zero => exact ⟨s, rfl⟩
  | succ n ih =>
    obtain ⟨s1, h1⟩ := ih
    obtain ⟨s2, h2⟩ := hf s1
    exact ⟨s2, by rw [forRangeM_succ, h1, Res.ok_bind, h2]⟩

/-- `SeqSSOR`, `SeqSOR`/`SeqGS` and `SeqJac`: with invertible diagonal blocks, `apply` on `v = 0` is a linear operator in `d`, for
every number of iterations and every relaxation factor. -/
theorem C26_sweep_preconditioners_linear (β : BlockSolve R V V) (hβ : ∀ a (c : K) x, β.act a (c • x) = c • β.act a x)
    (tr : R → R) (nid : K → Bool) (A : SpMat R) (hS : A.Sorted) (hD : A.HasDiag) (hI : A.DiagInvertible β.act) (n : Nat) (w : K)
    (P : Obj R K) (hP : P = .ssor A n w ∨ P = .sor A n w ∨ P = .jac A n w) :
    ∃ M : (Nat → V) →ₗ[K] (Nat → V), ∀ d, Prec.apply β tr nid P 0 d = .ok (P, M d) := by
  have hsw := fun b x => (C25_sweeps_succeed_iff β w A hS hD b x).1 hI
  apply linear_of_total β hβ
  intro d
  rcases hP with rfl | rfl | rfl
  · obtain ⟨r, hr⟩ := iterate_total n (ssorStep β w A d) (fun s => by
      obtain ⟨s1, h1⟩ := (hsw d s).2.2.1
      obtain ⟨s2, h2⟩ := (hsw d s1).2.2.2
      exact ⟨s2, by unfold ssorStep; rw [h1, Res.ok_bind, h2]⟩) 0
    exact ⟨r, by dsimp only [Prec.apply]; rw [hr, Res.ok_bind]⟩
  · obtain ⟨r, hr⟩ := iterate_total n (bsorf β.act (solveLoc β) w A d) (fun s => (hsw d s).2.2.1) 0
    exact ⟨r, by dsimp only [Prec.apply, sorDir]; rw [if_pos rfl, hr, Res.ok_bind]⟩
  · obtain ⟨r, hr⟩ := iterate_total n (dbjac β.act (solveLoc β) w A d) (fun s => (hsw d s).1) 0
    exact ⟨r, by dsimp only [Prec.apply]; rw [hr, Res.ok_bind]⟩

end Linear

/-! ### Each preconditioner is the stated number of sweeps / the stated triangular solves -/

theorem iterate_seq {S : Type} (n : Nat) (f : S → Res S) (s s' : S) (h : iterate n f s = .ok s') :
    ∃ x : Nat → S, x 0 = s ∧ x n = s' ∧ ∀ k, k < n → f (x k) = .ok (x (k + 1)) := by
  unfold iterate at h
  induction n generalizing s' with
  | zero => injection h with h; exact ⟨fun _ => s, rfl, h, fun k hk => by omega⟩
  | succ n ih =>
    rw [forRangeM_succ, Res.bind_eq_ok] at h
    obtain ⟨s1, h1, h2⟩ := h
    obtain ⟨x, x0, xn, hx⟩ := ih s1 h1
    refine ⟨fun k => if k ≤ n then x k else s', by simp [x0], by simp, fun k hk => ?_⟩
    by_cases hkn : k = n
    · subst hkn; simp [xn, h2]
    · simp only [show k ≤ n by omega, show k + 1 ≤ n by omega, if_true]
      exact hx k (by omega)

/-- `SeqJac(A,n,w)`: `n` steps `D (x_{k+1} - x_k) = w (d - A x_k)` from the given `v`. -/
theorem C26_jacobi_sweeps (β : BlockSolve R V V) (hβ : ∀ a (c : K) x, β.act a (c • x) = c • β.act a x) (tr : R → R)
    (nid : K → Bool) (A : SpMat R) (hS : A.Sorted) (hD : A.HasDiag) (n : Nat) (w : K) (P' : Obj R K) (v d r : Nat → V)
    (h : Prec.apply β tr nid (.jac A n w) v d = .ok (P', r)) :
    ∃ x : Nat → Nat → V, x 0 = v ∧ x n = r ∧ ∀ k, k < n → ∀ i, i < A.n → ∀ a, (A.row i).Stores i a →
      β.act a (x (k + 1) i - x k i) = w • (d i - A.apply β.act (x k) i) := by
  dsimp only [Prec.apply] at h
  rw [Res.bind_eq_ok] at h
  obtain ⟨r', hr, h⟩ := h
  injection h with h; injection h with _ h
  obtain ⟨x, x0, xn, hx⟩ := iterate_seq n _ v r' hr
  exact ⟨x, x0, xn.trans h, fun k hk i hi a ha => C25_dbjac β w (fun a x => hβ a w x) A hS hD d (x k) _ (hx k hk) i hi a ha⟩

/-- `SeqSOR(A,n,w)::apply<forward>` (and `SeqGS`): `n` forward (backward) sweeps of successive over-relaxation. -/
theorem C26_sor_sweeps (β : BlockSolve R V V) (hβ : ∀ a (c : K) x, β.act a (c • x) = c • β.act a x)
    (A : SpMat R) (hS : A.Sorted) (hD : A.HasDiag) (n : Nat) (w : K) (v d r : Nat → V) :
    (sorDir β true A n w v d = .ok r → ∃ x : Nat → Nat → V, x 0 = v ∧ x n = r ∧ ∀ k, k < n → ∀ i, i < A.n → ∀ a,
      (A.row i).Stores i a → β.act a (x (k + 1) i - x k i) =
        w • (d i - A.partSum β.act (· < i) (x (k + 1)) i - A.partSum β.act (fun j => ¬ j < i) (x k) i)) ∧
    (sorDir β false A n w v d = .ok r → ∃ x : Nat → Nat → V, x 0 = v ∧ x n = r ∧ ∀ k, k < n → ∀ i, i < A.n → ∀ a,
      (A.row i).Stores i a → β.act a (x (k + 1) i - x k i) =
        w • (d i - A.partSum β.act (i < ·) (x (k + 1)) i - A.partSum β.act (fun j => ¬ i < j) (x k) i)) := by
  constructor
  · intro h
    obtain ⟨x, x0, xn, hx⟩ := iterate_seq n _ v r h
    exact ⟨x, x0, xn, fun k hk i hi a ha => C25_bsorf β w (fun a x => hβ a w x) A hS hD d (x k) _ (hx k hk) i hi a ha⟩
  · intro h
    obtain ⟨x, x0, xn, hx⟩ := iterate_seq n _ v r h
    exact ⟨x, x0, xn, fun k hk i hi a ha => C25_bsorb β w (fun a x => hβ a w x) A hS hD d (x k) _ (hx k hk) i hi a ha⟩

/-- `SeqSSOR(A,n,w)`: `n` times a forward sweep to `y k` followed by a backward sweep. -/
theorem C26_ssor_sweeps (β : BlockSolve R V V) (hβ : ∀ a (c : K) x, β.act a (c • x) = c • β.act a x) (tr : R → R)
    (nid : K → Bool) (A : SpMat R) (hS : A.Sorted) (hD : A.HasDiag) (n : Nat) (w : K) (P' : Obj R K) (v d r : Nat → V)
    (h : Prec.apply β tr nid (.ssor A n w) v d = .ok (P', r)) :
    ∃ x y : Nat → Nat → V, x 0 = v ∧ x n = r ∧ ∀ k, k < n → ∀ i, i < A.n → ∀ a, (A.row i).Stores i a →
      β.act a (y k i - x k i) = w • (d i - A.partSum β.act (· < i) (y k) i - A.partSum β.act (fun j => ¬ j < i) (x k) i) ∧
      β.act a (x (k + 1) i - y k i) =
        w • (d i - A.partSum β.act (i < ·) (x (k + 1)) i - A.partSum β.act (fun j => ¬ i < j) (y k) i) := by
  dsimp only [Prec.apply] at h
  rw [Res.bind_eq_ok] at h
  obtain ⟨r', hr, h⟩ := h
  injection h with h; injection h with _ h
  obtain ⟨x, x0, xn, hx⟩ := iterate_seq n _ v r' hr
  have hy : ∀ k, ∃ y, k < n → bsorf β.act (solveLoc β) w A d (x k) = .ok y ∧ bsorb β.act (solveLoc β) w A d y = .ok (x (k + 1)) := by
    intro k
    by_cases hk : k < n
    · have := hx k hk
      unfold ssorStep at this
      rw [Res.bind_eq_ok] at this
      obtain ⟨y, h1, h2⟩ := this
      exact ⟨y, fun _ => ⟨h1, h2⟩⟩
    · exact ⟨v, fun h => absurd h hk⟩
  choose y hy using hy
  refine ⟨x, y, x0, xn.trans h, fun k hk i hi a ha => ⟨?_, ?_⟩⟩
  · exact C25_bsorf β w (fun a x => hβ a w x) A hS hD d (x k) _ (hy k hk).1 i hi a ha
  · exact C25_bsorb β w (fun a x => hβ a w x) A hS hD d (y k) _ (hy k hk).2 i hi a ha

section Direct
variable [SMulCommClass R K V]

/-- the factor `apply` multiplies with: `w`, but `1` if `w` passes for one -/
def effective (nid : K → Bool) (w : K) : K := if nid w then w else 1

theorem scaled_eq (nid : K → Bool) (w : K) (n : Nat) (v : Nat → V) (k : Nat) (hk : k < n) :
    (if nid w then scaleVec n w v else v) k = effective nid w • v k := by
  unfold effective scaleVec
  by_cases h : nid w = true
  · simp [h, hk]
  · simp [h]

/-- `SeqILU(A,n,w,resort)`: whenever construction succeeds, every call of `apply` returns the `v` with `L U v = w d`, for a
factorisation `L U` of `A` on the ILU(n) pattern; re-sorted storage needs at least one row. -/
theorem C26_ilu (I : BlockInv R) (β : BlockSolve R V V) (tr : R → R) (nid : K → Bool) (A : SpMat R) (hA : A.WF)
    (hsq : A.m = A.n) (hD : A.HasDiag) (n : Nat) (w : K) (resort : Bool) (hn : resort = true → 0 < A.n) (P : Obj R K)
    (h : mkILU I A n w resort = .ok P) :
    ∃ (F : SpMat R) (piv : Nat → R), (if n = 0 then Ilu.ilu0 I A else IluN.ilun I n A) = .ok F ∧
      (∀ i, i < A.n → piv i * F.entry i i = 1 ∧ F.entry i i * piv i = 1) ∧
      ∀ v d : Nat → V, ∃ r, Prec.apply β tr nid P v d = .ok (P, r) ∧ (∀ k, A.n ≤ k → r k = v k) ∧ ∀ i, i < A.n →
        ∑ k ∈ Finset.range A.n, lowerFactor F i k • (∑ j ∈ Finset.range A.n, upperFactor F piv k j • r j) =
          effective nid w • d i := by
  unfold mkILU at h
  rw [Res.bind_eq_ok] at h
  obtain ⟨F, hF, h⟩ := h
  obtain ⟨B, hB, hBsq, hBn, hBF⟩ : ∃ B : SpMat R, B.WF ∧ B.m = B.n ∧ B.n = A.n ∧ Ilu.ilu0 I B = .ok F := by
    by_cases h0 : n = 0
    · rw [if_pos h0] at hF; exact ⟨A, hA, hsq, rfl, hF⟩
    · rw [if_neg h0] at hF
      obtain ⟨G, B, -, b1, b2, b3, -, -, b6⟩ := C21_ilun_is_ilu0_on_fill_pattern I n A hA hD
      exact ⟨B, b3, by rw [b1, b2, hsq], b1, by rw [← b6, hF]⟩
  obtain ⟨piv, hIL⟩ := C17_ilu0_reproduces_on_pattern I B F hB hBsq hBF
  have hfin := ilu0_finished I B F hB hBF
  have hFn : F.n = A.n := by rw [hIL.n, hBn]
  have hFm : F.m = F.n := by rw [hIL.m, hIL.n, hBsq]
  have hS : F.Sorted := fun i hi => (hfin i (by rw [← hIL.n]; exact hi)).2.1
  have hFD : F.HasDiag := fun i hi => by
    obtain ⟨-, -, p, f, h3, -⟩ := hfin i (by rw [← hIL.n]; exact hi); exact ⟨f, h3⟩
  have hFW : F.WF := by
    intro i hi
    refine ⟨hS i hi, fun e he => ?_⟩
    have : e.1 ∈ (B.row i).map Prod.fst := by
      rw [← (hfin i (by rw [← hIL.n]; exact hi)).1]; exact List.mem_map_of_mem he
    obtain ⟨x, hx, hxe⟩ := List.mem_map.mp this
    rw [← hxe, hIL.m]
    exact (hB i (by rw [← hIL.n]; exact hi)).2 x hx
  have hpiv : ∀ i, i < F.n → piv i * F.entry i i = 1 ∧ F.entry i i * piv i = 1 := fun i hi => hIL.pivot i (by rw [← hIL.n]; exact hi)
  refine ⟨F, piv, hF, fun i hi => hpiv i (by omega), fun v d => ?_⟩
  obtain ⟨v', e1, e2, e3⟩ := C19_backsolve_inverts_factors F piv hFW hFm hFD hpiv v d
  have main : ∀ r : Nat → V, (∀ k, k < F.n → r k = effective nid w • v' k) → (∀ k, F.n ≤ k → r k = v' k) →
      (∀ k, A.n ≤ k → r k = v k) ∧ ∀ i, i < A.n →
        ∑ k ∈ Finset.range A.n, lowerFactor F i k • (∑ j ∈ Finset.range A.n, upperFactor F piv k j • r j) =
          effective nid w • d i := by
    intro r hr hr'
    refine ⟨fun k hk => by rw [hr' k (by omega), e2 k (by omega)], fun i hi => ?_⟩
    rw [← hFn, ← e3 i (by omega), Finset.smul_sum]
    refine Finset.sum_congr rfl fun k _ => ?_
    rw [← smul_comm (lowerFactor F i k), Finset.smul_sum (r := effective nid w)]
    refine congrArg (fun x : V => lowerFactor F i k • x) (Finset.sum_congr rfl fun j hj => ?_)
    rw [hr j (Finset.mem_range.mp hj), smul_comm]
  cases resort with
  | false =>
    rw [if_neg (by simp)] at h
    injection h with h
    subst h
    refine ⟨_, by dsimp only [Prec.apply]; rw [e1, Res.ok_bind], ?_⟩
    apply main
    · intro k hk; exact scaled_eq nid w F.n v' k hk
    · intro k hk
      by_cases hw : nid w = true
      · simp [hw, scaleVec, show ¬ k < F.n by omega]
      · simp [hw]
  | true =>
    rw [if_pos rfl, Res.bind_eq_ok] at h
    obtain ⟨c, hc, h⟩ := h
    injection h with h
    subst h
    have hn0 : 0 < F.n := by rw [hFn]; exact hn rfl
    obtain ⟨lo, up, inv, c1, c2⟩ := C20_crs_backsolve_eq (V := V) F hn0 hS hFD
    rw [hc] at c1
    injection c1 with c1
    have hlo : c.1.nRows = F.n := by
      obtain ⟨l, kl, hl, rl⟩ := crsLower_rep F hn0 hS hFD
      unfold Ilu.convertToCRS at hc
      rw [hl, Res.ok_bind, Res.bind_eq_ok] at hc
      obtain ⟨u, -, hc⟩ := hc
      injection hc with hc
      rw [← hc]; exact rl.nRows
    have c2' := c2 v d
    refine ⟨_, by dsimp only [Prec.apply]; rw [c1]; dsimp only; rw [c2', e1, Res.ok_bind], ?_⟩
    have hlo' : lo.nRows = F.n := by rw [← hlo, c1]
    apply main
    · intro k hk; rw [hlo']; exact scaled_eq nid w F.n v' k hk
    · intro k hk
      by_cases hw : nid w = true
      · simp [hw, scaleVec, hlo', show ¬ k < F.n by omega]
      · simp [hw]

/-- `SeqDILU(A,w)`: whenever construction succeeds, every call of `apply` returns the `v` with `(D+L) D^{-1} (D+U) v = w d`. -/
theorem C26_dilu (I : BlockInv R) (β : BlockSolve R V V) (tr : R → R) (nid : K → Bool) (A : SpMat R) (hA : A.WF)
    (hsq : A.m = A.n) (hD : A.HasDiag) (checking : Bool) (w : K) (P : Obj R K) (h : mkDILU I checking A w = .ok P) :
    ∃ D Dinv, IsDILU A D Dinv ∧ ∀ v d : Nat → V, ∃ r, Prec.apply β tr nid P v d = .ok (P, r) ∧ (∀ k, A.n ≤ k → r k = v k) ∧
      ∀ i, i < A.n → ∑ k ∈ Finset.range A.n, dLower A D i k • Dinv k • (∑ j ∈ Finset.range A.n, dUpper A D k j • r j) =
        effective nid w • d i := by
  unfold mkDILU at h
  simp only [Res.bind_eq_ok] at h
  obtain ⟨-, -, Dinv, hDi, h⟩ := h
  injection h with h
  subst h
  obtain ⟨D, hDD⟩ := C23_decomposition I A hA hsq hD _ Dinv hDi
  refine ⟨D, Dinv, hDD, fun v d => ?_⟩
  obtain ⟨v', e1, e2, e3⟩ := C23_backsolve A hA hsq hD D Dinv hDD.inverse v d
  refine ⟨_, by dsimp only [Prec.apply]; rw [e1, Res.ok_bind], fun k hk => ?_, fun i hi => ?_⟩
  · rw [← e2 k hk]
    by_cases hw : nid w = true
    · simp [hw, scaleVec, show ¬ k < A.n by omega]
    · simp [hw]
  · rw [← e3 i hi, Finset.smul_sum]
    refine Finset.sum_congr rfl fun k _ => ?_
    rw [← smul_comm (dLower A D i k) (effective nid w), ← smul_comm (Dinv k) (effective nid w), Finset.smul_sum (r := effective nid w)]
    refine congrArg (fun x : V => dLower A D i k • Dinv k • x) (Finset.sum_congr rfl fun j hj => ?_)
    rw [scaled_eq nid w A.n v' j (Finset.mem_range.mp hj), smul_comm]

/-- `SeqILDL(A,w)`: whenever construction succeeds, every call of `apply` returns the `v` with `L D L^T v = w d`, for an `L D L^T`
that agrees with the lower triangle of `A` on its pattern. -/
theorem C26_ildl (I : BlockInv R) (β : BlockSolve R V V) {tr : R → R} (ht : IsTranspose tr) (nid : K → Bool) (A : SpMat R)
    (hA : A.WF) (hsq : A.m = A.n) (w : K) (P : Obj R K) (h : mkILDL I tr A w = .ok P) :
    ∃ (F : SpMat R) (D : Nat → R), F.n = A.n ∧ (∀ i j, j ≤ i → A.Has i j → ldlt tr F D i j = A.entry i j) ∧
      ∀ v d : Nat → V, ∃ r, Prec.apply β tr nid P v d = .ok (P, r) ∧ (∀ k, A.n ≤ k → r k = v k) ∧ ∀ i, i < A.n →
        ∑ k ∈ Finset.range A.n, lowerFactor F i k • D k • (∑ j ∈ Finset.range A.n, tr (lowerFactor F j k) • r j) = w • d i := by
  unfold mkILDL at h
  simp only [Res.bind_eq_ok] at h
  obtain ⟨L, hL, F, hF, h⟩ := h
  injection h with h
  subst h
  have hDiag : A.HasDiag := by
    by_contra hn
    rw [(C22_lower_triangle A hA).2 hn] at hL
    cases hL
  obtain ⟨B, b1, b2, b3, b4, b5, b6, b7⟩ := (C22_lower_triangle A hA).1 hDiag
  rw [hL] at b1
  injection b1 with b1
  subst b1
  obtain ⟨D, hIL⟩ := C22_ldl_reproduces_on_pattern I ht L F b4 b5 hF
  have hFn : F.n = L.n := hIL.n
  have hcols : ∀ i, i < F.n → ∀ e ∈ F.row i, ∃ x ∈ L.row i, x.1 = e.1 := by
    intro i hi e he
    have : e.1 ∈ (L.row i).map Prod.fst := by rw [← hIL.pattern i (by omega)]; exact List.mem_map_of_mem he
    obtain ⟨x, hx, hxe⟩ := List.mem_map.mp this
    exact ⟨x, hx, hxe⟩
  have hFW : F.WF := by
    intro i hi
    refine ⟨asc_of_cols (hIL.pattern i (by omega)) (b4 i (by omega)).1, fun e he => ?_⟩
    obtain ⟨x, hx, hxe⟩ := hcols i hi e he
    rw [← hxe, hIL.m]
    exact (b4 i (by omega)).2 x hx
  have hFD : F.HasDiag := by
    intro i hi
    obtain ⟨b, hb⟩ := b5 i (by omega)
    have : i ∈ (F.row i).map Prod.fst := by
      rw [hIL.pattern i (by omega)]; exact List.mem_map.mpr ⟨(i, b), hb, rfl⟩
    obtain ⟨x, hx, hxe⟩ := List.mem_map.mp this
    obtain ⟨x1, x2⟩ := x
    dsimp only at hxe
    subst hxe
    exact ⟨x2, hx⟩
  have hFl : ∀ i, i < F.n → ∀ e ∈ F.row i, e.1 ≤ i := by
    intro i hi e he
    obtain ⟨x, hx, hxe⟩ := hcols i hi e he
    rw [← hxe]; exact b6 i (by omega) x hx
  refine ⟨F, D, by omega, fun i j hji hij => ?_, fun v d => ?_⟩
  · rw [hIL.product i j hji (((b7 i j hji).1).mpr hij), (b7 i j hji).2]
  · obtain ⟨v', e1, e2, e3⟩ := C22_backsolve ht F D hFW (by rw [hIL.m, hFn, b2, b3, hsq]) hFD
      (fun i hi => hIL.pivot i (by omega)) true (fun _ => hFl) v d
    refine ⟨_, by dsimp only [Prec.apply]; rw [e1, Res.ok_bind], fun k hk => ?_, fun i hi => ?_⟩
    · rw [← e2 k (by omega)]; unfold scaleVec; rw [if_neg (by omega)]
    · have hFA : F.n = A.n := by omega
      rw [← hFA, ← e3 i (by omega), Finset.smul_sum]
      refine Finset.sum_congr rfl fun k _ => ?_
      rw [← smul_comm (lowerFactor F i k) w, ← smul_comm (D k) w, Finset.smul_sum (r := w)]
      refine congrArg (fun x : V => lowerFactor F i k • D k • x) (Finset.sum_congr rfl fun j hj => ?_)
      rw [← smul_comm]
      congr 1
      unfold scaleVec
      rw [if_pos (Finset.mem_range.mp hj)]

/-- `Richardson(w)` is multiplication with `w`, whatever `v` held. -/
theorem C26_richardson (β : BlockSolve R V V) (tr : R → R) (nid : K → Bool) (w : K) (v d : Nat → V) :
    Prec.apply β tr nid (.richardson w : Obj R K) v d = .ok (.richardson w, fun k => w • d k) := rfl

/-- The factorisation preconditioners are linear operators as soon as their construction succeeded. -/
theorem C26_factorisation_preconditioners_linear (I : BlockInv R) (β : BlockSolve R V V)
    (hβ : ∀ a (c : K) x, β.act a (c • x) = c • β.act a x) {tr : R → R} (ht : IsTranspose tr) (nid : K → Bool) (A : SpMat R)
    (hA : A.WF) (hsq : A.m = A.n) (hD : A.HasDiag) (hn : 0 < A.n) (w : K) (P : Obj R K)
    (h : (∃ n resort, mkILU I A n w resort = .ok P) ∨ (∃ ch, mkDILU I ch A w = .ok P) ∨ mkILDL I tr A w = .ok P ∨
      P = .richardson w) :
    ∃ M : (Nat → V) →ₗ[K] (Nat → V), ∀ d, Prec.apply β tr nid P 0 d = .ok (P, M d) := by
  apply linear_of_total β hβ
  intro d
  rcases h with ⟨n, rs, h⟩ | ⟨ch, h⟩ | h | h
  · obtain ⟨_, _, -, -, hr⟩ := C26_ilu I β tr nid A hA hsq hD n w rs (fun _ => hn) P h
    obtain ⟨r, hr, -⟩ := hr 0 d
    exact ⟨r, hr⟩
  · obtain ⟨_, _, -, hr⟩ := C26_dilu I β tr nid A hA hsq hD ch w P h
    obtain ⟨r, hr, -⟩ := hr 0 d
    exact ⟨r, hr⟩
  · obtain ⟨_, _, -, -, hr⟩ := C26_ildl I β ht nid A hA hsq w P h
    obtain ⟨r, hr, -⟩ := hr 0 d
    exact ⟨r, hr⟩
  · subst h; exact ⟨_, rfl⟩

/-- With `DUNE_ISTL_WITH_CHECKING` the constructors reject a matrix with a missing diagonal entry and nothing else. -/
theorem C26_checked_construction (A : SpMat R) (hA : A.WF) (n : Nat) (w : K) :
    (A.HasDiag → mkSSOR true A n w = .ok (.ssor A n w) ∧ mkSOR true A n w = .ok (.sor A n w) ∧ mkJac true A n w = .ok (.jac A n w)) ∧
    (¬ A.HasDiag → mkSSOR true A n w = .throw .istlError ∧ mkSOR true A n w = .throw .istlError ∧
      mkJac true A n w = .throw .istlError) := by
  have hl := C22_lower_triangle A hA
  unfold Ildl.lowerTriangle at hl
  unfold mkSSOR mkSOR mkJac checkDiag
  simp only [if_true]
  constructor
  · intro hD
    obtain ⟨B, hB, -⟩ := hl.1 hD
    rw [Res.bind_eq_ok] at hB
    obtain ⟨u, hu, -⟩ := hB
    rw [hu]
    exact ⟨rfl, rfl, rfl⟩
  · intro hD
    have := hl.2 hD
    cases hf : forRangeM A.n (Ildl.diagCheck A) () with
    | ok u => rw [hf] at this; cases this
    | ub => rw [hf] at this; cases this
    | throw e =>
      rw [hf] at this
      injection this with this
      subst this
      exact ⟨rfl, rfl, rfl⟩

end Direct

/-- Two sweeps of SSOR with relaxation 1/2 on a 3x3 matrix: all hypotheses are met and the result is not trivial. -/
example : (match Prec.apply numSolve (fun x => x) (fun w => decide (w ≠ (1 : ℚ))) (.ssor demo33 2 (1 / 2 : ℚ)) 0
    (fun k => if k = 0 then 1 else 0) with
  | .ok s => some (decide (s.2 0 = 0), decide (s.2 1 = 0), decide (s.2 2 = 0))
  | _ => none) = some (false, false, false) := by
  decide +kernel

end Istl
