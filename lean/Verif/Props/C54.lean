import Verif.Model.Schwarz
import Verif.Spec.Schwarz
import Verif.Props.C09
import Verif.Props.C36

/-! # C54 — parallel operators and preconditioners, overlapping decomposition -/

namespace Istl
namespace Par
open Finset

variable {B V K : Type} [AddCommGroup B] [AddCommGroup V]

theorem idx_eq_of_loc {A : PIS} (hA : PisOk A) {e f : Idx} (he : e ∈ A) (hf : f ∈ A) (h : e.loc = f.loc) : e = f :=
  List.inj_on_of_nodup_map hA.locs he hf h

theorem idx_eq_of_g {A : PIS} (hA : PisOk A) {e f : Idx} (he : e ∈ A) (hf : f ∈ A) (h : e.g = f.g) : e = f := by
  have h1 := (lookup_iff hA f.g e).2 ⟨he, h⟩
  have h2 := (lookup_iff hA f.g f).2 ⟨hf, rfl⟩
  rw [h1] at h2
  exact Option.some.inj h2

/-- A sum over the local indices as a sum over the global ones. -/
theorem sum_local {P : Nat} {pis : Nat → PIS} {sz : Nat → Nat} {G : Finset Nat} (hD : Decomp P pis sz G) {p : Nat} (hp : p < P)
    (F Fg : Nat → V) (h1 : ∀ f ∈ pis p, F f.loc = Fg f.g) (h2 : ∀ h ∈ G, (∀ f ∈ pis p, f.g ≠ h) → Fg h = 0) :
    ∑ j ∈ range (sz p), F j = ∑ h ∈ G, Fg h := by
  have e1 : ∑ e ∈ (pis p).toFinset, F e.loc = ∑ j ∈ range (sz p), F j := by
    refine Finset.sum_nbij (fun e => e.loc) ?_ ?_ ?_ ?_
    · intro e he; exact mem_range.2 (hD.bounded p hp e (List.mem_toFinset.1 he))
    · intro e he f hf h
      exact idx_eq_of_loc (hD.ok p hp) (List.mem_toFinset.1 he) (List.mem_toFinset.1 hf) h
    · intro j hj
      obtain ⟨e, he, h⟩ := hD.covered p hp j (by simpa using hj)
      exact ⟨e, by simpa using he, h⟩
    · intro e _; rfl
  have e2 : ∑ e ∈ (pis p).toFinset, Fg e.g = ∑ h ∈ ((pis p).toFinset.image fun e => e.g), Fg h := by
    rw [Finset.sum_image]
    intro e he f hf h
    exact idx_eq_of_g (hD.ok p hp) (by simpa using he) (by simpa using hf) h
  rw [← e1, Finset.sum_congr rfl fun e he => h1 e (List.mem_toFinset.1 he), e2]
  refine Finset.sum_subset ?_ ?_
  · intro g hg
    obtain ⟨e, he, rfl⟩ := Finset.mem_image.1 hg
    exact hD.inG p hp e (List.mem_toFinset.1 he)
  · intro h hh hn
    refine h2 h hh fun f hf hg => hn (Finset.mem_image.2 ⟨f, List.mem_toFinset.2 hf, hg⟩)

theorem ovlp_row {P : Nat} {pis : Nat → PIS} {sz : Nat → Nat} {G : Finset Nat} (hD : Decomp P pis sz G) (β : BlockAct B V V)
    {A : Nat → SpMat B} {M : Nat → Nat → B} (hA : OverlapMat P pis sz G A M) {x : Nat → Nat → V} {X : Nat → V} (hx : Consistent P pis x X)
    {p : Nat} (hp : p < P) {e : Idx} (he : e ∈ pis p) (hc : e.attr ≠ .copy) :
    ∑ j ∈ range (A p).m, β.mul ((A p).entry e.loc j) (x p j) = globalMul β G M X e.g := by
  rw [hA.cols p hp]
  refine sum_local hD hp _ _ (fun f hf => ?_) (fun h hh hn => ?_)
  · rw [hA.entry p hp e he hc f hf, hx p hp f hf]
  · rw [hA.closed p hp e he hc h hh hn, map_zero, AddMonoidHom.zero_apply]

/-- `OverlappingSchwarzOperator::apply`: applied to a consistent vector it gives, on every process, the product with the global matrix at
all owner and overlap indices and zero at the copy indices, for any number of processes and any decomposition. -/
theorem C54_overlapping_apply {P : Nat} {pis : Nat → PIS} {sz : Nat → Nat} {G : Finset Nat} (hD : Decomp P pis sz G) (β : BlockAct B V V)
    {A : Nat → SpMat B} {M : Nat → Nat → B} (hA : OverlapMat P pis sz G A M) (x : Nat → Nat → V) (X : Nat → V) (hx : Consistent P pis x X) :
    Projected P pis (fun p => ovlpApplyOn β (A p) (pis p) (x p)) (globalMul β G M X) := by
  intro p hp e he
  obtain ⟨c1, c2⟩ := C36_project (hD.ok p hp) ((A p).umv β (x p) (fun _ => 0))
  by_cases hc : e.attr = .copy
  · rw [if_pos hc]; exact c1 e he hc
  · rw [if_neg hc]
    change project _ _ _ = _
    rw [c2 e.loc (fun f hf hl => by rw [idx_eq_of_loc (hD.ok p hp) hf he hl]; exact hc), C09_umv β (A p) (hA.wf p hp),
      if_pos (by rw [hA.rows p hp]; exact hD.bounded p hp e he), zero_add]
    exact ovlp_row hD β hA hx hp he hc

/-- `applyscaleadd(alpha,x,y)` adds `alpha` times the product; the old values of `y` at the copy indices do not matter, afterwards they
are zero. -/
theorem C54_overlapping_applyscaleadd [Ring K] [Module K V] {P : Nat} {pis : Nat → PIS} {sz : Nat → Nat} {G : Finset Nat}
    (hD : Decomp P pis sz G) (β : BlockAct B V V) {A : Nat → SpMat B} {M : Nat → Nat → B} (hA : OverlapMat P pis sz G A M) (alpha : K)
    (x y : Nat → Nat → V) (X Y : Nat → V) (hx : Consistent P pis x X) (hy : ConsistentExceptCopy P pis y Y) :
    Projected P pis (fun p => ovlpScaleAddOn β (A p) (pis p) alpha (x p) (y p)) (fun g => Y g + alpha • globalMul β G M X g) := by
  intro p hp e he
  obtain ⟨c1, c2⟩ := C36_project (hD.ok p hp) ((A p).usmv β alpha (x p) (y p))
  by_cases hc : e.attr = .copy
  · rw [if_pos hc]; exact c1 e he hc
  · rw [if_neg hc]
    change project _ _ _ = _
    rw [c2 e.loc (fun f hf hl => by rw [idx_eq_of_loc (hD.ok p hp) hf he hl]; exact hc), C09_usmv β alpha (A p) (hA.wf p hp),
      if_pos (by rw [hA.rows p hp]; exact hD.bounded p hp e he), hy p hp e he hc, ovlp_row hD β hA hx hp he hc]

theorem localView_eq {P : Nat} {pis : Nat → PIS} {sz : Nat → Nat} {G : Finset Nat} (hD : Decomp P pis sz G) {d : Nat → Nat → V} {D : Nat → V}
    (hd : Projected P pis d D) {p : Nat} (hp : p < P) {i : Nat} (hi : i < sz p) : d p i = localView pis D p i := by
  obtain ⟨e, he, rfl⟩ := hD.covered p hp i hi
  have : (pis p).find? (fun f => decide (f.loc = e.loc)) = some e := by
    rcases hf : (pis p).find? (fun f => decide (f.loc = e.loc)) with _ | f
    · rw [List.find?_eq_none] at hf
      exact absurd (hf e he) (by simp)
    · have hfe : f.loc = e.loc := by simpa using List.find?_some hf
      exact hf.trans (congrArg some (idx_eq_of_loc (hD.ok p hp) (List.mem_of_find?_eq_some hf) he hfe))
  rw [localView, this, hd p hp e he]

/-- Values at the owners extend to a global vector. -/
theorem owner_values {P : Nat} {pis : Nat → PIS} {sz : Nat → Nat} {G : Finset Nat} (hD : Decomp P pis sz G) (w : Nat → Nat → V) :
    ∃ W : Nat → V, ConsistentAtOwner P pis w W := by
  classical
  refine ⟨fun g => if h : ∃ p, p < P ∧ ∃ e ∈ pis p, e.g = g ∧ e.attr = .owner then w h.choose (h.choose_spec.2.choose).loc else 0, ?_⟩
  intro p hp e he ha
  have h : ∃ p, p < P ∧ ∃ f ∈ pis p, f.g = e.g ∧ f.attr = .owner := ⟨p, hp, e, he, rfl, ha⟩
  have hq := h.choose_spec
  have hf := hq.2.choose_spec
  have hpq : p = h.choose := hD.unique p h.choose hp hq.1 e he _ hf.1 ha hf.2.2 hf.2.1.symm
  have hfe : hq.2.choose = e := idx_eq_of_g (hD.ok p hp) (by rw [hpq]; exact hf.1) he hf.2.1
  dsimp only
  rw [dif_pos h, hfe, ← hpq]

/-- `BlockPreconditioner::apply`, any sequential preconditioners that only look at the local vectors: it is an operator `W` on global
vectors. From a projected defect with the global values `D` it produces a consistent vector with the global values `W D`, whatever the
processes hold outside of the index sets and whatever the order of the messages, and `W D` has the values that the owners compute. -/
theorem C54_block_preconditioner {P : Nat} {pis : Nat → PIS} {sz : Nat → Nat} {G : Finset Nat} (hD : Decomp P pis sz G)
    (prec : Nat → (Nat → V) → (Nat → V) → (Nat → V))
    (hprec : ∀ p v v' d d', (∀ i, i < sz p → v i = v' i ∧ d i = d' i) → ∀ i, i < sz p → prec p v d i = prec p v' d' i) :
    ∃ W : (Nat → V) → Nat → V,
      (∀ D p, p < P → ∀ e ∈ pis p, e.attr = .owner → W D e.g = prec p (fun _ => 0) (localView pis D p) e.loc) ∧
      ∀ (order : Nat → List Nat), (∀ q, q < P → (order q).Perm ((List.range P).filter (· ≠ q))) → ∀ (v d : Nat → Nat → V) (D : Nat → V),
        Consistent P pis v (fun _ => 0) → Projected P pis d D → Consistent P pis (blockPrecApply prec pis order v d) (W D) := by
  choose W hW using fun D => owner_values hD (fun p => prec p (fun _ => 0) (localView pis D p))
  refine ⟨W, fun D p hp e he ha => (hW D p hp e he ha).symm, fun order hord v d D hv hd => ?_⟩
  refine C36_consistent hD (fun p => prec p (v p) (d p)) (W D) ?_ order hord
  intro p hp e he ha
  rw [← hW D p hp e he ha]
  refine hprec p _ _ _ _ (fun i hi => ⟨?_, localView_eq hD hd hp hi⟩) e.loc (hD.bounded p hp e he)
  obtain ⟨f, hf, rfl⟩ := hD.covered p hp i hi
  exact hv p hp f hf

/-- `ParSSOR::apply`: if the sweeps succeed on all processes, the result is consistent and has the values computed by the owners. -/
theorem C54_parssor [CommRing K] [Module K V] {R : Type} {P : Nat} {pis : Nat → PIS} {sz : Nat → Nat} {G : Finset Nat} (hD : Decomp P pis sz G)
    (β : BlockSolve R V V) (A : Nat → SpMat R) (n : Nat) (w : K) (order : Nat → List Nat)
    (hord : ∀ q, q < P → (order q).Perm ((List.range P).filter (· ≠ q))) (v d u : Nat → Nat → V)
    (h : ∀ p, p < P → parSsorOn β (A p) n w (v p) (d p) = .ok (u p)) :
    ∃ W : Nat → V, Consistent P pis (fun q => copyOwnerToAll pis u u q (order q)) W ∧
      ∀ p, p < P → ∀ e ∈ pis p, e.attr = .owner → ∃ z, parSsorOn β (A p) n w (v p) (d p) = .ok z ∧ W e.g = z e.loc := by
  obtain ⟨W, hW⟩ := owner_values hD u
  exact ⟨W, C36_consistent hD u W hW order hord, fun p hp e he ha => ⟨u p, h p hp, (hW p hp e he ha).symm⟩⟩

/-- `BlockPreconditioner::pre` and `ParSSOR::pre` make the start vector consistent: only its values at the owners matter. -/
theorem C54_pre {P : Nat} {pis : Nat → PIS} {sz : Nat → Nat} {G : Finset Nat} (hD : Decomp P pis sz G)
    (order : Nat → List Nat) (hord : ∀ q, q < P → (order q).Perm ((List.range P).filter (· ≠ q))) (x b : Nat → Nat → V) (X : Nat → V)
    (hx : ConsistentAtOwner P pis x X) :
    Consistent P pis (blockPrecPre (fun _ x b => (x, b)) pis order x b).1 X ∧ (blockPrecPre (fun _ x b => (x, b)) pis order x b).2 = b :=
  ⟨C36_consistent hD x X hx order hord, rfl⟩

/-! ### Example: the one-dimensional Laplacian with three unknowns on two processes -/

/-- Process 0 owns 0 and 1 and has 2 as copy; process 1 owns 2, has 1 as overlap and 0 as copy. -/
def demoOv : Nat → PIS
  | 0 => [⟨0, 0, .owner⟩, ⟨1, 1, .owner⟩, ⟨2, 2, .copy⟩]
  | _ => [⟨0, 2, .copy⟩, ⟨1, 1, .overlap⟩, ⟨2, 0, .owner⟩]

theorem demoOv_decomp : Decomp 2 demoOv (fun _ => 3) {0, 1, 2} where
  ok p hp := by interval_cases p <;> exact ⟨by decide, by decide⟩
  bounded p hp := by interval_cases p <;> decide
  covered p hp := by interval_cases p <;> · intro i hi; interval_cases i <;> decide
  inG p hp := by interval_cases p <;> decide
  owned g hg := by
    have : g < 3 := by
      have : ∀ g ∈ ({0, 1, 2} : Finset Nat), g < 3 := by decide
      exact this g hg
    interval_cases g
    · exact ⟨0, by decide, by decide⟩
    · exact ⟨0, by decide, by decide⟩
    · exact ⟨1, by decide, by decide⟩
  unique p q hp hq := by interval_cases p <;> interval_cases q <;> decide

/-- The local matrices; the rows of the copies hold Dirichlet conditions. -/
def demoOvMat : Nat → SpMat ℤ
  | 0 => { n := 3, m := 3, row := fun i => match i with | 0 => [(0, 2), (1, -1)] | 1 => [(0, -1), (1, 2), (2, -1)] | 2 => [(2, 1)] | _ => [] }
  | _ => { n := 3, m := 3, row := fun i => match i with | 0 => [(0, 2), (1, -1)] | 1 => [(0, -1), (1, 2), (2, -1)] | 2 => [(2, 1)] | _ => [] }

/-- The global matrix. -/
def demoM (g h : Nat) : ℤ := if g = h then 2 else if g + 1 = h ∨ h + 1 = g then -1 else 0

theorem demoOv_mat : OverlapMat 2 demoOv (fun _ => 3) {0, 1, 2} demoOvMat demoM where
  wf p hp := by
    interval_cases p <;> · intro i hi
                           have hi : i < 3 := hi
                           interval_cases i <;> simp [demoOvMat, Row.Asc]
  rows p hp := by interval_cases p <;> rfl
  cols p hp := by interval_cases p <;> rfl
  entry p hp := by interval_cases p <;> decide
  closed p hp := by interval_cases p <;> decide

/-- Numbers as blocks. -/
def intAct : BlockAct ℤ ℤ ℤ := ⟨AddMonoidHom.mul, AddMonoidHom.mul, AddMonoidHom.mul⟩

/-- The consistent vector 5, 7, 11: process 1 computes `11*2-7` at its own unknown, `-5+14-11` in the overlap, and zero at the copy. -/
example : Consistent 2 demoOv (fun p i => (if p = 0 then [5, 7, 11] else [11, 7, 5]).getD i (0 : ℤ)) (fun g => [5, 7, 11].getD g 0) ∧
    (List.range 3).map (ovlpApplyOn intAct (demoOvMat 1) (demoOv 1) (fun i => [11, 7, 5].getD i 0)) = [15, -2, 0] := by
  constructor
  · intro p hp; interval_cases p <;> decide
  · decide

end Par
end Istl
