import Verif.Lemmas.ParGalerkin2
import Verif.Props.C72
import Verif.Props.C54

/-! Values of the coarse matrix on several processes: the global picture. -/

namespace Istl
namespace Amg
open Finset MatMat Par

variable {B : Type} [AddCommGroup B]
variable {P : Nat} {pis : Nat → PIS} {sz : Nat → Nat} {G : Finset Nat} (hD : Decomp P pis sz G)
  {agg agg' : Nat → Nat → Agg} {C : Nat → PIS} {N : Nat → Nat} {F : Nat → Option Nat}
  (hK : Coarsening P pis sz agg C N F) (hP : Published P pis C F agg')

include hK hP

theorem pub_iff {p : Nat} (hp : p < P) {e : Idx} (he : e ∈ pis p) {c : Idx} (hc : c ∈ C p) :
    agg' p e.loc = .id c.loc ↔ F e.g = some c.g := by
  have h := hP p hp e he
  cases hF : F e.g with
  | none =>
    rw [hF] at h
    dsimp only at h
    rw [h]
    exact ⟨fun hc => by (cases hc), fun hc => by (cases hc)⟩
  | some i =>
    rw [hF] at h
    obtain ⟨c', hc', hg, hid⟩ := h
    rw [hid, ← hg]
    constructor
    · intro h
      injection h with h
      rw [idx_eq_of_loc (hK.shared.ok p hp) hc' hc h]
    · intro h
      rw [idx_eq_of_g (hK.shared.ok p hp) hc' hc (Option.some.inj h)]

omit hP

include hD in
theorem owner_rows {p : Nat} (hp : p < P) {c : Idx} (hc : c ∈ C p) (ho : c.attr = .owner) :
    ∀ g ∈ G, F g = some c.g → ∃ e ∈ pis p, e.g = g ∧ e.attr = .owner := by
  intro g hg hF
  obtain ⟨q, hq, e, he, heg, heo⟩ := hD.owned g hg
  obtain ⟨c', hc', hg', ha'⟩ := hK.known q hq e he c.g (by rw [heg]; exact hF)
  have := hK.shared.unique q p hq hp c' hc' c hc (ha'.mpr heo) ho hg'
  subst this
  exact ⟨e, he, heg, heo⟩

include hD in
theorem decomp_coarse : Decomp P C N (coarseSet G F) where
  ok := hK.shared.ok
  bounded := hK.shared.bounded
  covered := hK.covered hD.covered
  inG p hp c hc := by
    obtain ⟨e, he, hF, -⟩ := hK.onto p hp c hc
    exact Finset.mem_eraseNone.mpr (Finset.mem_image.mpr ⟨e.g, hD.inG p hp e he, hF⟩)
  owned I hI := by
    obtain ⟨g, hg, hF⟩ := Finset.mem_image.mp (Finset.mem_eraseNone.mp hI)
    obtain ⟨q, hq, e, he, heg, heo⟩ := hD.owned g hg
    obtain ⟨c', hc', hg', ha'⟩ := hK.known q hq e he I (by rw [heg]; exact hF)
    exact ⟨q, hq, c', hc', hg', ha'.mpr heo⟩
  unique := hK.shared.unique

include hP hD

/-- a complete row -/
theorem ptap_row {good : Attr → Prop} {A : Nat → SpMat B} {M : Nat → Nat → B} (hM : DistMat good P pis sz G A M) {p : Nat} (hp : p < P)
    {c : Idx} (hc : c ∈ C p) (hgood : ∀ g ∈ G, F g = some c.g → ∃ e ∈ pis p, e.g = g ∧ good e.attr) :
    (∀ d ∈ C p, PtAP ((List.range (A p).n).map (agg' p)) (A p) c.loc d.loc = coarseMat G F M c.g d.g) ∧
    ∀ J, (∀ d ∈ C p, d.g ≠ J) → coarseMat G F M c.g J = 0 := by
  have hgd : ∀ e ∈ pis p, F e.g = some c.g → good e.attr := by
    intro e he hF
    obtain ⟨e', he', hg, ha⟩ := hgood e.g (hD.inG p hp e he) hF
    rw [← idx_eq_of_g (hD.ok p hp) he' he hg]
    exact ha
  have hget : ∀ i, i < sz p → ∀ x : Agg, ((List.range (A p).n).map (agg' p))[i]? = some x ↔ agg' p i = x := by
    intro i hi x
    rw [hM.rows p hp, List.getElem?_map, List.getElem?_range hi]
    simp
  constructor
  · intro d hd
    unfold PtAP coarseMat
    rw [hM.rows p hp, hM.cols p hp]
    refine sum_local hD hp _ _ ?_ ?_
    · intro f hf
      by_cases hF : F f.g = some c.g
      · refine sum_local hD hp _ _ ?_ ?_
        · intro k hk
          rw [← hM.rows p hp]
          exact if_congr (and_congr ((hget f.loc (hD.bounded p hp f hf) _).trans (pub_iff hK hP hp hf hc))
            ((hget k.loc (hD.bounded p hp k hk) _).trans (pub_iff hK hP hp hk hd))) (hM.entry p hp f hf (hgd f hf hF) k hk) rfl
        · intro h hh hno
          rw [hM.closed p hp f hf (hgd f hf hF) h hh hno]
          simp
      · rw [Finset.sum_eq_zero, Finset.sum_eq_zero]
        · intro h _
          rw [if_neg (fun hc' => hF hc'.1)]
        · intro j _
          rw [if_neg]
          rintro ⟨h1, -⟩
          rw [← hM.rows p hp, hget f.loc (hD.bounded p hp f hf), pub_iff hK hP hp hf hc] at h1
          exact hF h1
    · intro g hg hno
      apply Finset.sum_eq_zero
      intro h _
      rw [if_neg]
      rintro ⟨h1, -⟩
      obtain ⟨e, he, heg, -⟩ := hgood g hg h1
      exact hno e he heg
  · intro J hJ
    unfold coarseMat
    apply Finset.sum_eq_zero
    intro g hg
    apply Finset.sum_eq_zero
    intro h hh
    split
    · rename_i hF
      obtain ⟨e, he, heg, ha⟩ := hgood g hg hF.1
      rw [← heg]
      refine hM.closed p hp e he ha h hh ?_
      intro f hf hfg
      obtain ⟨d, hd, hdg, -⟩ := hK.known p hp f hf J (by rw [hfg]; exact hF.2)
      exact hJ d hd hdg
    · rfl

omit hD hP hK

/-- the numbering after publishing -/
theorem ownFirst_of {G : Graph} {A : PIS} (hA : PisOk A) (hG : G.WF) {pub : Nat → Bool} {agg m : Nat → Agg} {s : CoSt}
    (hL : Local G A pub agg s) (hc : OwnConnected G A agg) {N : Nat} (hN : s.number ≤ N) (hm : ∀ v, ¬ Foreign A v → m v = s.agg v)
    (hfor : ∀ v, v < G.n → Foreign A v → m v = .iso ∨ ∃ a, s.number ≤ a ∧ a < N ∧ m v = .id a)
    (hused : ∀ a, s.number ≤ a → a < N → ∃ v, v < G.n ∧ Foreign A v ∧ m v = .id a) : OwnFirst G A m s.number N := by
  have : ownMap A m = ownMap A s.agg := by
    funext v
    unfold ownMap
    split
    · rfl
    · rename_i h; exact hm v h
  refine ⟨?_, ?_, ?_, hN, hfor, hused⟩
  · unfold OwnConnected; rw [this]; exact hL.connected hG hc
  · rw [this]; exact hL.numbered.1
  · rw [this]; exact hL.numbered.2

/-- the rows of overlap indices stay complete -/
theorem overlap_rows {P : Nat} {pis : Nat → PIS} {sz : Nat → Nat} {G : Finset Nat} (hD : Decomp P pis sz G) {agg : Nat → Nat → Agg}
    {C : Nat → PIS} {N : Nat → Nat} {F : Nat → Option Nat} (hK : Coarsening P pis sz agg C N F) {A : Nat → SpMat B}
    (hwf : ∀ p, p < P → (A p).WF) (hn : ∀ p, p < P → (A p).n = sz p) {gr : Nat → Graph} (hgr : ∀ p, p < P → matrixGraph (A p) = .ok (gr p))
    (hconn : ∀ p, p < P → OwnConnected (gr p) (pis p) (agg p)) {S : Nat → Nat → Prop} (hS : OverlapPat P pis A S) {p : Nat} (hp : p < P)
    {c : Idx} (hc : c ∈ C p) (hcc : c.attr ≠ .copy) : ∀ g ∈ G, F g = some c.g → ∃ e ∈ pis p, e.g = g ∧ e.attr ≠ .copy := by
  have hncopy : ∀ e ∈ pis p, F e.g = some c.g → e.attr ≠ .copy := fun e he hF ha => hcc ((hK.copies p hp c hc).mpr ⟨e, he, hF, ha⟩)
  -- one step along the coupling graph
  have hstep : ∀ g h, S g h → F g = some c.g → F h = some c.g → (∃ e ∈ pis p, e.g = g ∧ e.attr ≠ .copy) →
      ∃ e ∈ pis p, e.g = h ∧ e.attr ≠ .copy := by
    rintro g h hs hg hh ⟨e, he, rfl, ha⟩
    obtain ⟨f, hf, rfl⟩ := hS.known p hp e he ha h hs
    exact ⟨f, hf, rfl, hncopy f hf hh⟩
  -- all fine indices of `c` have the same owner
  obtain ⟨e0, he0, hF0, -⟩ := hK.onto p hp c hc
  obtain ⟨q, hq, f0, hf0, hf0g, hf0o⟩ := hD.owned e0.g (hD.inG p hp e0 he0)
  obtain ⟨cq, hcq, hcqg, hcqo⟩ := hK.known q hq f0 hf0 c.g (by rw [hf0g]; exact hF0)
  have hall := fun g hg hF => owner_rows hD hK hq hcq (hcqo.mpr hf0o) g hg (by rw [hcqg]; exact hF)
  have hwq := hwf q hq
  obtain ⟨hsq, hGn, hGw, hadj⟩ := matrixGraph_wf (A q) hwq (gr q) (hgr q hq)
  have hsz : (gr q).n = sz q := by rw [hGn, hn q hq]
  have hnotF : ∀ e ∈ pis q, e.attr = .owner → ¬ Foreign (pis q) e.loc := fun e he ho => owner_notForeign (hD.ok q hq) he ho
  have hown : ∀ e ∈ pis q, e.attr = .owner → ownMap (pis q) (agg q) e.loc = agg q e.loc := fun e he ho => by
    unfold ownMap; rw [if_neg (hnotF e he ho)]
  have hni : ∀ e ∈ pis q, e.attr = .owner → F e.g = some c.g → agg q e.loc ≠ .iso := fun e he ho hF hi => by
    have := (hK.isolated q hq e he ho).mpr hi
    rw [this] at hF; cases hF
  -- the first vertex of the aggregate
  obtain ⟨f, hfle, hFf, hfe⟩ := exists_first (ownMap (pis q) (agg q)) f0.loc (by
    rw [hown f0 hf0 hf0o]; exact hni f0 hf0 hf0o (by rw [hf0g]; exact hF0))
  have hf0n : f0.loc < (gr q).n := by rw [hsz]; exact hD.bounded q hq f0 hf0
  have hvert : ∀ v, v < (gr q).n → ownMap (pis q) (agg q) v = ownMap (pis q) (agg q) f → ∃ e ∈ pis q, e.loc = v ∧ e.attr = .owner ∧
      F e.g = some c.g := by
    intro v hv hm
    obtain ⟨e, he, hl⟩ := hD.covered q hq v (by rw [← hsz]; exact hv)
    have ho : e.attr = .owner := by
      by_contra hcon
      have : ownMap (pis q) (agg q) v = .iso := by unfold ownMap; rw [if_pos ⟨e, he, hl, hcon⟩]
      rw [hm] at this
      exact hFf.1 this
    refine ⟨e, he, hl, ho, ?_⟩
    have h1 : agg q e.loc = agg q f0.loc := by rw [← hown e he ho, ← hown f0 hf0 hf0o, hl, hm, ← hfe]
    have := (hK.aggregate q hq e he f0 hf0 ho hf0o (by rw [h1]; exact hni f0 hf0 hf0o (by rw [hf0g]; exact hF0))).mpr h1
    rw [this, hf0g]; exact hF0
  have hedge : ∀ u t, u < (gr q).n → t ∈ (gr q).adj u → ∀ e ∈ pis q, e.loc = u → e.attr = .owner → ∀ e' ∈ pis q, e'.loc = t → S e.g e'.g := by
    intro u t hu ht e he hl ho e' he' hl'
    have := ((hadj u (by rw [← hGn]; exact hu) t).mp ht).1
    exact hS.stored q hq e he ho e' he' (by rw [hl, hl']; exact this)
  have hreach : ∀ w, Relation.ReflTransGen (fun u t => t ∈ (gr q).adj u ∧ ownMap (pis q) (agg q) t = ownMap (pis q) (agg q) f) f w →
      w < (gr q).n ∧ ownMap (pis q) (agg q) w = ownMap (pis q) (agg q) f := by
    intro w hw
    induction hw with
    | refl => exact ⟨by omega, rfl⟩
    | tail _ hs ih => exact ⟨hGw _ ih.1 _ hs.1, hs.2⟩
  -- from a known vertex back to the first one
  have hback : ∀ w, Relation.ReflTransGen (fun u t => t ∈ (gr q).adj u ∧ ownMap (pis q) (agg q) t = ownMap (pis q) (agg q) f) f w →
      (∀ e ∈ pis q, e.loc = w → ∃ k ∈ pis p, k.g = e.g ∧ k.attr ≠ .copy) → ∀ e ∈ pis q, e.loc = f → ∃ k ∈ pis p, k.g = e.g ∧ k.attr ≠ .copy := by
    intro w hw
    induction hw with
    | refl => exact fun h => h
    | tail hr hs ih =>
      rename_i u t
      intro h
      apply ih
      intro e he hl
      obtain ⟨hun, hum⟩ := hreach u hr
      obtain ⟨e1, he1, hl1, ho1, hF1⟩ := hvert u hun hum
      have := idx_eq_of_loc (hD.ok q hq) he he1 (by rw [hl, hl1])
      subst this
      obtain ⟨e2, he2, hl2, ho2, hF2⟩ := hvert t (hGw u hun t hs.1) hs.2
      exact hstep e2.g e.g (hS.symm _ _ (hedge u t hun hs.1 e he hl ho1 e2 he2 hl2)) hF2 hF1 (h e2 he2 hl2)
  have hforth : ∀ w, Relation.ReflTransGen (fun u t => t ∈ (gr q).adj u ∧ ownMap (pis q) (agg q) t = ownMap (pis q) (agg q) f) f w →
      (∀ e ∈ pis q, e.loc = f → ∃ k ∈ pis p, k.g = e.g ∧ k.attr ≠ .copy) → ∀ e ∈ pis q, e.loc = w → ∃ k ∈ pis p, k.g = e.g ∧ k.attr ≠ .copy := by
    intro w hw
    induction hw with
    | refl => exact fun h => h
    | tail hr hs ih =>
      rename_i u t
      intro h e he hl
      obtain ⟨hun, hum⟩ := hreach u hr
      obtain ⟨e1, he1, hl1, ho1, hF1⟩ := hvert u hun hum
      obtain ⟨e2, he2, hl2, ho2, hF2⟩ := hvert t (hGw u hun t hs.1) hs.2
      have := idx_eq_of_loc (hD.ok q hq) he he2 (by rw [hl, hl2])
      subst this
      exact hstep e1.g e.g (hedge u t hun hs.1 e1 he1 hl1 ho1 e he hl) hF1 hF2 (ih h e1 he1 hl1)
  have hr0 := hconn q hq f f0.loc (by omega) hf0n hFf hfe
  have hf := hback f0.loc hr0 (by
    intro e he hl
    rw [idx_eq_of_loc (hD.ok q hq) he hf0 hl]
    exact ⟨e0, he0, hf0g.symm, hncopy e0 he0 hF0⟩)
  intro g hg hF
  obtain ⟨e, he, heg, heo⟩ := hall g hg hF
  have heF : F e.g = some c.g := by rw [heg]; exact hF
  have hee : ownMap (pis q) (agg q) e.loc = ownMap (pis q) (agg q) f := by
    rw [← hfe, hown e he heo, hown f0 hf0 hf0o]
    exact (hK.aggregate q hq e he f0 hf0 heo hf0o (hni e he heo heF)).mp (by rw [heF, hf0g, hF0])
  have hr := hconn q hq f e.loc (by omega) (by rw [hsz]; exact hD.bounded q hq e he) hFf hee
  obtain ⟨k, hk, hkg, hka⟩ := hforth e.loc hr hf e he rfl
  exact ⟨k, hk, by rw [hkg, heg], hka⟩

end Amg
end Istl
