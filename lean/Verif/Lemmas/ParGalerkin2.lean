import Verif.Lemmas.ParGalerkin
import Verif.Lemmas.Galerkin
import Verif.Props.C44

/-! Values of the coarse matrix on several processes: one process. -/

namespace Istl
namespace Amg
open Finset MatMat Par

variable {B : Type} [AddCommGroup B]

theorem diag_read (C : SpMat B) (hC : ∀ a < C.n, (C.row a).Asc) (hd : ∀ a < C.n, C.Has a a) :
    ∃ rs, forRangeM C.n (fun i rs => getDiag C i rs) (List.replicate C.n 0) = .ok rs ∧ VecIs rs C.n fun a => C.entry a a := by
  have hget : ∀ a < C.n, (C.row a).get a = .ok (C.entry a a) := by
    intro a ha
    obtain ⟨b, hb⟩ := (hd a ha).2
    have : C.entry a a = b := Row.val_of_mem (hC a ha) hb
    rw [this]
    exact Row.get_of_mem _ (hC a ha) hb
  obtain ⟨rs, e, h⟩ := forRangeM_inv C.n (fun i rs => getDiag C i rs)
    (fun i rs => VecIs rs C.n (fun a => if a < i then C.entry a a else 0)) (List.replicate C.n 0)
    ⟨by simp, by intro i hi; rw [rd_ok]; simp [hi]⟩ (by
      intro i rs hi h
      obtain ⟨rs', e, hv⟩ := h.wr (C.entry i i) hi
      refine ⟨rs', by simp [getDiag, hget i hi, e], hv.congr ?_⟩
      intro q _
      by_cases hq : q = i
      · subst hq; simp
      · rw [upd_ne _ _ hq]
        have : q < i ↔ q < i + 1 := by omega
        simp [this])
  exact ⟨rs, e, h.congr fun q hq => by rw [if_pos hq]⟩

theorem diag_write (C : SpMat B) (hC : ∀ a < C.n, (C.row a).Asc) (hd : ∀ a < C.n, C.Has a a) (rs : List B) (d : Nat → B)
    (hrs : VecIs rs C.n d) :
    ∃ C', forRangeM C.n (fun i C => putDiag rs i C) C = .ok C' ∧ SamePat C C' ∧
      ∀ a < C.n, ∀ b, C'.entry a b = if b = a then d a else C.entry a b := by
  obtain ⟨C', e, hp, hv⟩ := forRangeM_inv C.n (fun i C => putDiag rs i C)
    (fun i C' => SamePat C C' ∧ ∀ a < C.n, ∀ b, C'.entry a b = if b = a ∧ a < i then d a else C.entry a b) C
    ⟨⟨rfl, rfl, fun _ => rfl⟩, by intro a _ b; simp⟩ (by
      intro i C1 hi ⟨hp, hv⟩
      obtain ⟨x, hx⟩ := (hp.has i i).mpr (hd i hi).2
      have hasc := hp.asc i (hC i hi)
      have hmod := Row.modify_of_mem _ hasc hx (fun _ => d i)
      have hval : ∀ b, Row.val ((C1.row i).map fun e => if e.1 = i then (e.1, d i) else e) b =
          if b = i then d i else (C1.row i).val b := by
        intro b
        have hk : ((C1.row i).map fun e => if e.1 = i then (e.1, d i) else e).map Prod.fst = (C1.row i).map Prod.fst := by
          rw [List.map_map]
          apply List.map_congr_left
          intro e _
          simp only [Function.comp_apply]
          split <;> rfl
        have hasc' : Row.Asc ((C1.row i).map fun e => if e.1 = i then (e.1, d i) else e) := by
          unfold Row.Asc
          rw [hk]; exact hasc
        by_cases hb : b = i
        · subst hb
          rw [if_pos rfl]
          exact Row.val_of_mem hasc' (List.mem_map.mpr ⟨(b, x), hx, by simp⟩)
        · rw [if_neg hb]
          unfold Row.val
          rw [List.find?_map]
          have : ((fun e : Nat × B => e.1 == b) ∘ fun e => if e.1 = i then (e.1, d i) else e) = fun e => e.1 == b := by
            funext e
            simp only [Function.comp_apply]
            split <;> rfl
          rw [this]
          cases hf : (C1.row i).find? fun e => e.1 == b with
          | none => rfl
          | some e =>
            have := List.find?_some hf
            have he : e.1 = b := by simpa using this
            simp only [Option.map_some]
            rw [if_neg (by rw [he]; exact hb)]
      refine ⟨{ C1 with row := upd C1.row i ((C1.row i).map fun e => if e.1 = i then (e.1, d i) else e) }, ?_, ⟨hp.1, hp.2.1, ?_⟩, ?_⟩
      · simp only [putDiag, hrs.2 i hi, Res.ok_bind, hmod]
      · intro a
        dsimp only
        by_cases ha : a = i
        · subst ha
          rw [upd_same, ← hp.2.2 a, List.map_map]
          apply List.map_congr_left
          intro e _
          simp only [Function.comp_apply]
          split <;> rfl
        · rw [upd_ne _ _ ha]; exact hp.2.2 a
      · intro a ha b
        unfold SpMat.entry
        dsimp only
        by_cases hai : a = i
        · subst hai
          rw [upd_same, hval b]
          have := hv a ha b
          unfold SpMat.entry at this
          rw [this]
          by_cases hb : b = a
          · simp [hb]
          · simp [hb]
        · rw [upd_ne _ _ hai]
          have h1 := hv a ha b
          unfold SpMat.entry at h1
          rw [h1]
          have : a < i ↔ a < i + 1 := by omega
          simp [this])
  exact ⟨C', e, hp, fun a ha b => by rw [hv a ha b]; simp [ha]⟩

/-- one process: what it sends, and what it computes from what it gets -/
theorem parCalculate_local (agg : List Agg) (A : SpMat B) (hA : A.WF) (hsq : A.m = A.n) (k : Nat) (hm : MapOK agg A.n k)
    (C : SpMat B) (hn : C.n = k) (hC : ∀ a < C.n, (C.row a).Asc) (hd : ∀ a < C.n, C.Has a a)
    (hpat : ∀ i j a b, A.Has i j → agg[i]? = some (.id a) → agg[j]? = some (.id b) → C.Has a b) :
    ∃ rs, galerkinDiag A agg C = .ok rs ∧ VecIs rs k (fun a => PtAP agg A a a) ∧
      ∀ (comm : List B → Res (List B)) (rs' : List B) (d : Nat → B), comm rs = .ok rs' → VecIs rs' k d →
        ∃ C', calculate comm A agg C = .ok C' ∧ SamePat C C' ∧ ∀ a < k, ∀ b, C'.entry a b = if b = a then d a else PtAP agg A a b := by
  obtain ⟨C1, e, hp, hv⟩ := galerkin_loop agg A hA hsq k hm C hn hC hpat
  have hn1 : C1.n = k := by rw [hp.1, hn]
  have hasc : ∀ a < C1.n, (C1.row a).Asc := fun a ha => hp.asc a (hC a (by rw [← hp.1]; exact ha))
  have hd1 : ∀ a < C1.n, C1.Has a a := fun a ha => ⟨ha, (hp.has _ _).mpr (hd a (by rw [← hp.1]; exact ha)).2⟩
  obtain ⟨rs, e1, h1⟩ := diag_read C1 hasc hd1
  refine ⟨rs, ?_, ?_, ?_⟩
  · unfold galerkinDiag
    rw [e, Res.ok_bind, e1]
  · rw [hn1] at h1
    exact h1.congr fun a ha => hv a ha a
  · intro comm rs' d hc hd'
    obtain ⟨C2, e2, hp2, hv2⟩ := diag_write C1 hasc hd1 rs' d (by rw [hn1]; exact hd')
    refine ⟨C2, ?_, SamePat.trans hp hp2, ?_⟩
    · unfold calculate
      rw [e, Res.ok_bind, e1, Res.ok_bind, hc, Res.ok_bind, e2]
    · intro a ha b
      rw [hv2 a (by omega) b, hv a ha b]

/-- pattern and values on one process -/
theorem parGalerkin_local (A : SpMat B) (hA : A.WF) (G : Graph) (hG : matrixGraph A = .ok G) {S : PIS} (hS : PisOk S) {m : Nat → Agg}
    {k N : Nat} (hO : OwnFirst G S m k N) {ov : List Nat} (hov : Sorted S A.n m ov) (novlp : Bool) {fuel : Nat} (hf : A.n + 1 ≤ fuel)
    (hu : ∀ v < A.n, m v = .iso ∨ ∃ a, a < N ∧ m v = .id a) (junk : B) :
    ∃ rows rs, parBuild G fuel S m N novlp ov = some (.ok rows) ∧
      galerkinDiag A ((List.range A.n).map m) (patternMat N rows junk) = .ok rs ∧
      VecIs rs N (fun a => PtAP ((List.range A.n).map m) A a a) ∧
      ∀ (comm : List B → Res (List B)) (rs' : List B) (d : Nat → B), comm rs = .ok rs' → VecIs rs' N d →
        ∃ C', calculate comm A ((List.range A.n).map m) (patternMat N rows junk) = .ok C' ∧ C'.n = N ∧ C'.m = N ∧ C'.WF ∧
          (∀ a < N, ∀ b, C'.Has a b ↔ (b = a ∨ ∃ i j, A.Has i j ∧ m i = .id a ∧ m j = .id b)) ∧
          ∀ a < N, ∀ b, C'.entry a b = if b = a then d a else PtAP ((List.range A.n).map m) A a b := by
  obtain ⟨hsq, hGn, hGw, hadj⟩ := matrixGraph_wf A hA G hG
  obtain ⟨rows, e, hlen, hrows⟩ := parBuild_spec hGw hS hO (by rw [hGn]; exact hov) novlp (fuel := fuel) (by omega)
  have hget : ∀ i, ∀ x : Agg, ((List.range A.n).map m)[i]? = some x ↔ i < A.n ∧ m i = x := by
    intro i x
    rw [List.getElem?_map]
    by_cases hi : i < A.n
    · rw [List.getElem?_range hi]; simp [hi]
    · rw [List.getElem?_eq_none (by simp; omega)]; simp [hi]
  have hrow : ∀ a < N, ∃ r, rows[a]? = some r ∧ (patternMat N rows junk).row a = r.map fun c => (c, junk) := by
    intro a ha
    refine ⟨rows[a], List.getElem?_eq_getElem (by omega), ?_⟩
    simp [patternMat, List.getD_eq_getElem?_getD, List.getElem?_eq_getElem (show a < rows.length by omega)]
  have hcoup : ∀ a b, Coupled G m a b ∨ b = a ↔ (b = a ∨ ∃ i j, A.Has i j ∧ m i = .id a ∧ m j = .id b) := by
    intro a b
    constructor
    · rintro (⟨i, j, hi, h1, h2, h3⟩ | h)
      · exact Or.inr ⟨i, j, ((hadj i (by omega) j).mp h2).1, h1, h3⟩
      · exact Or.inl h
    · rintro (h | ⟨i, j, h1, h2, h3⟩)
      · exact Or.inr h
      · by_cases hij : j = i
        · subst hij
          rw [h2] at h3
          exact Or.inr (by simpa using h3.symm)
        · exact Or.inl ⟨i, j, by rw [hGn]; exact h1.1, h2, (hadj i h1.1 j).mpr ⟨h1, hij⟩, h3⟩
  have hhas : ∀ a < N, ∀ b, (patternMat N rows junk).Has a b ↔ (b = a ∨ ∃ i j, A.Has i j ∧ m i = .id a ∧ m j = .id b) := by
    intro a ha b
    obtain ⟨r, hr, er⟩ := hrow a ha
    rw [← hcoup, or_comm, ← (hrows a r hr).2 b]
    unfold SpMat.Has Row.Has
    rw [er]
    constructor
    · rintro ⟨_, x, hx⟩
      obtain ⟨c, hc, hcx⟩ := List.mem_map.mp hx
      simp only [Prod.mk.injEq] at hcx
      rw [← hcx.1]; exact hc
    · intro hb
      exact ⟨ha, junk, List.mem_map.mpr ⟨b, hb, rfl⟩⟩
  have hm : MapOK ((List.range A.n).map m) A.n N := by
    refine ⟨by simp, ?_⟩
    intro i hi
    rcases hu i hi with h | ⟨a, ha, h⟩
    · exact Or.inl ((hget i _).mpr ⟨hi, h⟩)
    · exact Or.inr ⟨a, ha, (hget i _).mpr ⟨hi, h⟩⟩
  have hasc : ∀ a < (patternMat N rows junk).n, ((patternMat N rows junk).row a).Asc := by
    intro a ha
    obtain ⟨r, hr, er⟩ := hrow a ha
    rw [er]
    unfold Row.Asc
    rw [List.map_map]
    have : (Prod.fst ∘ fun c => (c, junk)) = (id : Nat → Nat) := rfl
    rw [this, List.map_id]
    exact (hrows a r hr).1
  obtain ⟨rs, e1, h1, h2⟩ := parCalculate_local ((List.range A.n).map m) A hA hsq N hm (patternMat N rows junk) rfl hasc
    (by intro a ha; exact (hhas a ha a).mpr (Or.inl rfl))
    (by
      intro i j a b h1 h2 h3
      have h2' := ((hget i _).mp h2).2
      have h3' := ((hget j _).mp h3).2
      have ha : a < N := by
        rcases hm.2 i h1.1 with h | ⟨a', ha', h⟩
        · rw [h2] at h; cases h
        · rw [h2] at h
          simp only [Option.some.injEq, Agg.id.injEq] at h
          omega
      exact (hhas a ha b).mpr (Or.inr ⟨i, j, h1, h2', h3'⟩))
  refine ⟨rows, rs, e, e1, h1, ?_⟩
  intro comm rs' d hc hd
  obtain ⟨C', e2, hp, hv⟩ := h2 comm rs' d hc hd
  have hHas : ∀ a < N, ∀ b, C'.Has a b ↔ (b = a ∨ ∃ i j, A.Has i j ∧ m i = .id a ∧ m j = .id b) := by
    intro a ha b
    rw [← hhas a ha b]
    unfold SpMat.Has
    rw [hp.1]
    exact and_congr_right fun _ => hp.has a b
  refine ⟨C', e2, hp.1, hp.2.1, ?_, hHas, hv⟩
  intro a ha
  have hn' : C'.n = N := hp.1
  have hm' : C'.m = N := hp.2.1
  refine ⟨hp.asc a (hasc a (by rw [← hp.1]; exact ha)), fun x hx => ?_⟩
  rcases (hHas a (by omega) x.1).mp ⟨ha, x.2, hx⟩ with h | ⟨i, j, hij, _, hj⟩
  · omega
  · have hjn : j < A.n := by
      obtain ⟨hi, y, hy⟩ := hij
      have := (hA i hi).2 _ hy
      omega
    rcases hu j hjn with h | ⟨b, hb, h⟩
    · rw [h] at hj; cases hj
    · rw [h] at hj
      have : b = x.1 := by simpa using hj
      omega

end Amg
end Istl
