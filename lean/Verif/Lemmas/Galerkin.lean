import Verif.Spec.AmgTransfer
import Verif.Lemmas.Vec
import Verif.Lemmas.Ccs
import Verif.Lemmas.MatMat

/-! Values of the Galerkin product. -/

namespace Istl
namespace Amg
open Finset MatMat

variable {B : Type} [AddCommGroup B]

theorem zeroMat_pat (C : SpMat B) : SamePat C (zeroMat C) := by
  refine ⟨rfl, rfl, fun i => ?_⟩
  simp [zeroMat, Function.comp_def]

theorem zeroMat_entry (C : SpMat B) (i j : Nat) : (zeroMat C).entry i j = 0 := by
  unfold SpMat.entry Row.val zeroMat
  dsimp only
  cases h : ((C.row i).map fun e => (e.1, (0 : B))).find? (fun e => e.1 == j) with
  | none => rfl
  | some e =>
    obtain ⟨x, _, hx⟩ := List.mem_map.mp (List.mem_of_find?_eq_some h)
    dsimp only
    rw [← hx]

theorem SamePat.trans {C D E : SpMat B} (h : SamePat C D) (h' : SamePat D E) : SamePat C E :=
  ⟨by rw [h'.1, h.1], by rw [h'.2.1, h.2.1], fun i => by rw [h'.2.2, h.2.2]⟩

/-- one row of the fine matrix -/
theorem galerkinRow_spec (agg : List Agg) (n k : Nat) (hm : MapOK agg n k) (i : Nat) (hi : i < n) (row : Row B)
    (hasc : row.Asc) (hcol : ∀ e ∈ row, e.1 < n) (C : SpMat B) (hn : C.n = k) (hC : ∀ a < C.n, (C.row a).Asc)
    (hpat : ∀ a b (e : Nat × B), agg[i]? = some (.id a) → e ∈ row → agg[e.1]? = some (.id b) → C.Has a b) :
    ∃ C', galerkinRow agg i row C = .ok C' ∧ SamePat C C' ∧ ∀ a < k, ∀ b, C'.entry a b = C.entry a b +
      ∑ j ∈ range n, if agg[i]? = some (.id a) ∧ agg[j]? = some (.id b) then row.val j else 0 := by
  unfold galerkinRow
  rcases hm.2 i hi with h | ⟨a0, ha0, h⟩
  · refine ⟨C, by simp [rd_ok.mpr h], ⟨rfl, rfl, fun _ => rfl⟩, ?_⟩
    intro a _ b
    simp [h]
  · rw [rd_ok.mpr h, Res.ok_bind, if_neg (by simp)]
    simp only [Agg.index, Res.ok_bind]
    obtain ⟨C', e, hp, hv⟩ := Ccs.foldlM_inv (fun C e => galerkinCol agg a0 C e)
      (fun Q C' => SamePat C C' ∧ ∀ a < k, ∀ b, C'.entry a b = C.entry a b +
        (Q.map fun e => if a0 = a ∧ agg[e.1]? = some (.id b) then e.2 else 0).sum) row C
      ⟨⟨rfl, rfl, fun _ => rfl⟩, by simp⟩ (by
        intro Q e rest C1 hl ⟨hp, hv⟩
        have he : e ∈ row := by rw [hl]; simp
        rcases hm.2 e.1 (hcol e he) with h' | ⟨b0, hb0, h'⟩
        · refine ⟨C1, by simp [galerkinCol, rd_ok.mpr h'], hp, ?_⟩
          intro a ha b
          rw [hv a ha b]
          simp [h']
        · have hhas : C1.Has a0 b0 := by
            have := hpat a0 b0 e h he h'
            exact ⟨by rw [hp.1]; exact this.1, (hp.has _ _).mpr this.2⟩
          obtain ⟨C2, e2, hp2, hv2⟩ := accEntry_fold (fun c (x : B) (_ : Unit) => c + x) (fun x _ => x) (fun _ _ _ => rfl)
            [((e.2, ()), a0, b0)] C1 (fun a ha => hp.asc a (hC a (by rw [← hp.1]; exact ha)))
            (by intro c hc; simp only [List.mem_singleton] at hc; subst hc; exact hhas)
          have e3 : accEntry (fun c (x : B) (_ : Unit) => c + x) e.2 () a0 b0 C1 = .ok C2 := by
            cases hacc : accEntry (fun c (x : B) (_ : Unit) => c + x) e.2 () a0 b0 C1 with
            | ok C3 => rw [List.foldlM_cons, hacc] at e2; exact e2
            | throw x => rw [List.foldlM_cons, hacc] at e2; cases e2
            | ub => rw [List.foldlM_cons, hacc] at e2; cases e2
          refine ⟨C2, ?_, SamePat.trans hp hp2, ?_⟩
          · simp only [galerkinCol, rd_ok.mpr h', Res.ok_bind, Agg.index]
            rw [if_neg (by simp)]
            exact e3
          · intro a ha b
            rw [hv2 a (by rw [hp.1, hn]; exact ha) b, hv a ha b, add_assoc]
            congr 1
            simp only [List.map_append, List.map_cons, List.map_nil, List.sum_append, List.sum_cons, List.sum_nil, add_zero,
              Prod.mk.injEq, h', Option.some.injEq, Agg.id.injEq])
    refine ⟨C', e, hp, ?_⟩
    intro a ha b
    rw [hv a ha b]
    congr 1
    rw [← Row.sum_val row hasc n hcol (fun j x => if a0 = a ∧ agg[j]? = some (.id b) then x else 0) (by simp)]
    apply Finset.sum_congr rfl
    intro j _
    simp only [h, Option.some.injEq, Agg.id.injEq]

/-- the loop over the fine matrix -/
theorem galerkin_loop (agg : List Agg) (A : SpMat B) (hA : A.WF) (hsq : A.m = A.n) (k : Nat) (hm : MapOK agg A.n k)
    (C : SpMat B) (hn : C.n = k) (hC : ∀ a < C.n, (C.row a).Asc)
    (hpat : ∀ i j a b, A.Has i j → agg[i]? = some (.id a) → agg[j]? = some (.id b) → C.Has a b) :
    ∃ C', forRangeM A.n (fun i C => galerkinRow agg i (A.row i) C) (zeroMat C) = .ok C' ∧ SamePat C C' ∧
      ∀ a < k, ∀ b, C'.entry a b = PtAP agg A a b := by
  obtain ⟨C', e, hp, hv⟩ := forRangeM_inv A.n (fun i C => galerkinRow agg i (A.row i) C)
    (fun t C' => SamePat C C' ∧ ∀ a < k, ∀ b, C'.entry a b = ∑ i ∈ range t, ∑ j ∈ range A.m,
      if agg[i]? = some (.id a) ∧ agg[j]? = some (.id b) then A.entry i j else 0) (zeroMat C)
    ⟨zeroMat_pat C, by intro a _ b; rw [zeroMat_entry]; simp⟩ (by
      intro i C1 hi ⟨hp, hv⟩
      obtain ⟨C2, e2, hp2, hv2⟩ := galerkinRow_spec agg A.n k hm i hi (A.row i) (hA i hi).1
        (fun e he => by rw [← hsq]; exact (hA i hi).2 e he) C1 (by rw [hp.1, hn])
        (fun a ha => hp.asc a (hC a (by rw [← hp.1]; exact ha))) (by
          intro a b x ha hx hb
          have := hpat i x.1 a b ⟨hi, x.2, hx⟩ ha hb
          exact ⟨by rw [hp.1]; exact this.1, (hp.has _ _).mpr this.2⟩)
      refine ⟨C2, e2, SamePat.trans hp hp2, ?_⟩
      intro a ha b
      rw [hv2 a ha b, hv a ha b, Finset.sum_range_succ, hsq]
      rfl)
  exact ⟨C', e, hp, hv⟩

/-- reading and writing back the diagonal changes nothing -/
theorem diag_roundtrip (C : SpMat B) (hC : ∀ a < C.n, (C.row a).Asc) (hd : ∀ a < C.n, C.Has a a) :
    ∃ rs, forRangeM C.n (fun i rs => getDiag C i rs) (List.replicate C.n 0) = .ok rs ∧
      forRangeM C.n (fun i C => putDiag rs i C) C = .ok C := by
  have hget : ∀ a < C.n, (C.row a).get a = .ok (C.entry a a) ∧ (a, C.entry a a) ∈ C.row a := by
    intro a ha
    obtain ⟨b, hb⟩ := (hd a ha).2
    have : C.entry a a = b := Row.val_of_mem (hC a ha) hb
    rw [this]
    exact ⟨Row.get_of_mem _ (hC a ha) hb, hb⟩
  obtain ⟨rs, e, h⟩ := forRangeM_inv C.n (fun i rs => getDiag C i rs)
    (fun i rs => VecIs rs C.n (fun a => if a < i then C.entry a a else 0)) (List.replicate C.n 0)
    ⟨by simp, by intro i hi; rw [rd_ok]; simp [hi]⟩ (by
      intro i rs hi h
      obtain ⟨rs', e, hv⟩ := h.wr (C.entry i i) hi
      refine ⟨rs', by simp [getDiag, (hget i hi).1, e], hv.congr ?_⟩
      intro q _
      by_cases hq : q = i
      · subst hq; simp
      · rw [upd_ne _ _ hq]
        have : q < i ↔ q < i + 1 := by omega
        simp [this])
  refine ⟨rs, e, ?_⟩
  obtain ⟨C', e', h'⟩ := forRangeM_inv C.n (fun i C => putDiag rs i C) (fun _ C' => C' = C) C rfl (by
    intro i C' hi h'
    subst h'
    refine ⟨_, ?_, rfl⟩
    have hr := h.2 i hi
    dsimp only at hr
    rw [if_pos hi] at hr
    have hmod : (C'.row i).modify i (fun _ => C'.entry i i) = .ok (C'.row i) := by
      rw [Row.modify_of_mem _ (hC i hi) (hget i hi).2]
      congr 1
      conv_rhs => rw [← List.map_id (C'.row i)]
      apply List.map_congr_left
      rintro ⟨j, b⟩ hb
      by_cases hj : j = i
      · subst hj
        have := Row.Asc.unique (hC j hi) hb (hget j hi).2
        simp [this]
      · simp [hj]
    have hupd : upd C'.row i (C'.row i) = C'.row := by
      funext q
      by_cases hq : q = i
      · subst hq; simp
      · rw [upd_ne _ _ hq]
    simp only [putDiag, hr, Res.ok_bind, hmod, hupd])
  rw [e', h']

end Amg
end Istl
