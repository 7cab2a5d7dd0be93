import Verif.Lemmas.ParAmg2
import Verif.Props.C46
import Verif.Props.C73

/-! # C85 — the multigrid cycle on several processes computes the cycle for the global problem -/

namespace Istl
namespace Amg
open Par Finset

variable {B V K : Type} [AddCommGroup V]

/-- **Restriction**: with or without redistribution, whatever the order of the messages and whatever the redistributed vector contained
before: from a right hand side with the global values `Y` at owner and overlap indices and zero at the copies the processes compute the
global restriction of `Y` at owner and overlap indices of the coarse level and zero at its copies. -/
theorem C85_restrict {P : Nat} {L : ParLevel B V} {C : Nat → PIS} {N : Nat → Nat} {G G' : Finset Nat} {F : Nat → Option Nat}
    (hT : TransferOk P L C G F) (hD : Decomp P L.pis L.sz G) (hC : Decomp P C N G') (y : DVec V) (Y : Nat → V) (hy : Projected P L.pis y Y) :
    Projected P C (parRestrict L C y) (globalRestrict G F Y) :=
  parRestrict_ok hT hD hC.ok y Y hy

/-- **Prolongation**: from a consistent coarse vector the processes compute, on all indices they know, the global prolongation, whatever the
old contents `v` of the fine vector. -/
theorem C85_prolong {P : Nat} {L : ParLevel B V} {C : Nat → PIS} {G : Finset Nat} {F : Nat → Option Nat} (hT : TransferOk P L C G F)
    (hD : Decomp P L.pis L.sz G) (hord : AllOthers P L.order) (v c : DVec V) (Z : Nat → V) (hc : Consistent P C c Z) :
    Consistent P L.pis (parProlong L v c) (globalProlong F Z) :=
  parProlong_ok hT hD hord v c Z hc

/-- **Adjoint**: the global prolongation is the transpose of the global restriction, for every pairing of blocks. -/
theorem C85_adjoint [Ring K] (pair : V →+ V →+ K) (G : Finset Nat) (F : Nat → Option Nat) (Y Z : Nat → V) :
    ∑ I ∈ coarseSet G F, pair (globalRestrict G F Y I) (Z I) = ∑ g ∈ G, pair (Y g) (globalProlong F Z g) := by
  have h1 : ∀ I, pair (globalRestrict G F Y I) (Z I) = ∑ g ∈ G, if F g = some I then pair (Y g) (Z I) else 0 := by
    intro I
    unfold globalRestrict
    rw [map_sum, AddMonoidHom.finsetSum_apply]
    refine Finset.sum_congr rfl fun g _ => ?_
    by_cases h : F g = some I
    · rw [if_pos h, if_pos h]
    · rw [if_neg h, if_neg h, map_zero, AddMonoidHom.zero_apply]
  rw [Finset.sum_congr rfl fun I _ => h1 I, Finset.sum_comm]
  refine Finset.sum_congr rfl fun g hg => ?_
  unfold globalProlong
  cases hF : F g with
  | none =>
    rw [map_zero]
    exact Finset.sum_eq_zero fun I _ => if_neg (by simp)
  | some J =>
    rw [Finset.sum_eq_single J]
    · rw [if_pos rfl]
    · intro I _ hne
      rw [if_neg (by simpa using Ne.symm hne)]
    · intro hn
      exact absurd (Finset.mem_eraseNone.mpr (Finset.mem_image.mpr ⟨g, hg, hF⟩)) hn

/-- The loops on functions are those of the sequential transfer on arrays. -/
theorem C85_local_transfer (agg : Nat → Agg) (n N : Nat) (h : ∀ i, i < n → agg i = .iso ∨ ∃ a, a < N ∧ agg i = .id a) (c f : Nat → V) :
    restrict ((List.range n).map agg) ((List.range N).map c) ((List.range n).map f) = .ok ((List.range N).map (restrictOn agg n f)) := by
  have key : ∀ k, k ≤ n → forRangeM k (fun i c => restrictStep ((List.range n).map agg) ((List.range n).map f) i c)
      (((List.range N).map c).map fun _ => 0) = .ok ((List.range N).map (restrictOn agg k f)) := by
    intro k
    induction k with
    | zero =>
      intro _
      have : ((List.range N).map c).map (fun _ => (0 : V)) = (List.range N).map (restrictOn agg 0 f) := by
        rw [List.map_map]; rfl
      rw [this]; rfl
    | succ k ih =>
      intro hk
      rw [forRangeM_succ, ih (by omega), Res.ok_bind]
      have rdm : ∀ {α : Type} (g : Nat → α) (m i : Nat), i < m → rd ((List.range m).map g) i = .ok (g i) := by
        intro α g m i hi
        unfold rd
        rw [List.getElem?_map, List.getElem?_range hi]; rfl
      have hstep : restrictOn agg (k + 1) f = match agg k with
          | .id a => upd (restrictOn agg k f) a (restrictOn agg k f a + f k)
          | _ => restrictOn agg k f := by
        unfold restrictOn
        rw [List.range_succ, List.foldl_append]
        rfl
      unfold restrictStep
      rw [rdm agg n k (by omega), Res.ok_bind]
      rcases h k (by omega) with hi | ⟨a, ha, hi⟩
      · rw [if_pos hi, hstep, hi]
      · rw [if_neg (by rw [hi]; intro hh; cases hh), hi]
        show (do let a ← Res.ok a; _) = _
        rw [Res.ok_bind, rdm _ N a ha, Res.ok_bind, rdm f n k (by omega), Res.ok_bind, hstep, hi]
        unfold wr
        rw [if_pos (by simpa using ha)]
        congr 1
        apply List.ext_getElem?
        intro j
        by_cases hj : a = j
        · subst hj
          rw [List.getElem?_set_self (by simpa using ha), List.getElem?_map, List.getElem?_range ha]
          simp [upd_same]
        · rw [List.getElem?_set_ne hj, List.getElem?_map, List.getElem?_map]
          by_cases hl : j < N
          · rw [List.getElem?_range hl]
            simp [upd_ne _ _ (Ne.symm hj)]
          · rw [List.getElem?_eq_none (by simpa using hl)]; rfl
  unfold restrict
  rw [List.length_map, List.length_range]
  exact key n (le_refl _)

/-- **Hypotheses, without redistribution**: if the coarse index sets and the aggregates maps are those of the parallel coarsening (C72,
C73) of a matrix whose overlap is complete, the transfer is as required. -/
theorem C85_transfer_overlap [AddCommGroup B] {P : Nat} {L : ParLevel B V} {G : Finset Nat} (hD : Decomp P L.pis L.sz G) (hR : L.redist = none)
    {agg : Nat → Nat → Agg} {C : Nat → PIS} {N : Nat → Nat} {F : Nat → Option Nat} (hK : Coarsening P L.pis L.sz agg C N F)
    (hP : Published P L.pis C F L.agg) (hwf : ∀ p, p < P → (L.mat p).WF) (hn : ∀ p, p < P → (L.mat p).n = L.sz p) {gr : Nat → Graph}
    (hgr : ∀ p, p < P → matrixGraph (L.mat p) = .ok (gr p)) (hconn : ∀ p, p < P → OwnConnected (gr p) (L.pis p) (agg p))
    {S : Nat → Nat → Prop} (hS : OverlapPat P L.pis L.mat S) : TransferOk P L C G F := by
  have e1 : L.fine = L.pis := by unfold ParLevel.fine; rw [hR]
  have e2 : L.fineSz = L.sz := by unfold ParLevel.fineSz; rw [hR]
  refine ⟨by rw [e1, e2]; exact hD, by rw [e1]; exact hP, ?_, fun h => absurd hR h, fun h => absurd hR h⟩
  intro p hp c hc hcc g hg hF
  rw [e1, hR]
  exact overlap_rows hD hK hwf hn hgr hconn hS hp hc hcc g hg hF

/-- **Hypotheses, with redistribution**: for the parallel coarsening of the redistributed index sets, which contain owners and copies only
(C82), the transfer is as required. -/
theorem C85_transfer_redistributed {P : Nat} {L : ParLevel B V} {G : Finset Nat} {new : Nat → PIS} {nsz : Nat → Nat}
    (hR : L.redist = some (new, nsz)) (hD : Decomp P new nsz G) (hattr : ∀ p, p < P → ∀ e ∈ new p, e.attr ≠ .overlap)
    {agg : Nat → Nat → Agg} {C : Nat → PIS} {N : Nat → Nat} {F : Nat → Option Nat} (hK : Coarsening P new nsz agg C N F)
    (hP : Published P new C F L.agg) (hf : FromAll P L.orderR) (hb : FromAll P L.orderB) : TransferOk P L C G F := by
  have e1 : L.fine = new := by unfold ParLevel.fine; rw [hR]
  have e2 : L.fineSz = nsz := by unfold ParLevel.fineSz; rw [hR]
  refine ⟨by rw [e1, e2]; exact hD, by rw [e1]; exact hP, ?_, fun _ => hf, fun _ => hb⟩
  intro p hp c hc hcc g hg hF
  rw [e1, hR]
  refine owner_rows hD hK hp hc ?_ g hg hF
  obtain ⟨e, he, hFe, ho⟩ := hK.onto p hp c hc
  by_contra hno
  have h1 : e.attr ≠ .owner := fun h => hno (ho.mpr h)
  have h2 : e.attr = .copy := by
    have h3 := hattr p hp e he
    cases ha : e.attr with
    | owner => exact absurd ha h1
    | overlap => exact absurd ha h3
    | copy => rfl
  exact hcc ((hK.copies p hp c hc).mpr ⟨e, he, hFe, h2⟩)

/-- **Coarse solve**: a solver that computes the same as the global one for consistent right hand sides (for example a parallel Krylov
method, C56, or a direct solver on a single process) does so for the right hand side `mgc` gives it. -/
theorem C85_coarse_solve {P : Nat} {L : ParLevel B V} {G : Finset Nat} (hD : Decomp P L.pis L.sz G) (hord : AllOthers P L.order)
    (solver : DVec V → DVec V → DVec V × DVec V × Bool) (solve : (Nat → V) → (Nat → V) → (Nat → V) × (Nat → V) × Bool)
    (h : ∀ u r U R, Consistent P L.pis u U → Consistent P L.pis r R →
      Consistent P L.pis (solver u r).1 (solve U R).1 ∧ (solver u r).2.2 = (solve U R).2.2) :
    SolverOf P L.pis (parCoarse L solver) solve := by
  intro u r U R hu hr
  exact h u _ U R hu (C36_consistent hD r R (fun p hp e he ha => by rw [hr p hp e he, if_neg (by rw [ha]; decide)]) L.order hord)

/-- **Coarse solve with redistribution**: the same for a solver on the redistributed index sets whose result does not depend on its start
vector, which is then whatever is left from the last call. -/
theorem C85_coarse_redistributed {P : Nat} {L : ParLevel B V} {G : Finset Nat} (hD : Decomp P L.pis L.sz G) {new : Nat → PIS} {nsz : Nat → Nat}
    (hN : Decomp P new nsz G) (hord : AllOthers P L.order) {orderN : Nat → List Nat} (hordN : AllOthers P orderN) (hf : FromAll P L.orderR)
    (hb : FromAll P L.orderB) (old : DVec V) (solver : DVec V → DVec V → DVec V × DVec V × Bool)
    (solve : (Nat → V) → (Nat → V) → (Nat → V) × (Nat → V) × Bool)
    (h : ∀ u r U R, Consistent P new r R → ConsistentAtOwner P new (solver u r).1 (solve U R).1 ∧ (solver u r).2.2 = (solve U R).2.2) :
    SolverOf P L.pis (parCoarseRedist L new orderN old solver) solve := by
  intro u r U R hu hr
  letI : Inhabited V := ⟨0⟩
  have hro : ConsistentAtOwner P L.pis r R := fun p hp e he ha => by rw [hr p hp e he, if_neg (by rw [ha]; decide)]
  have h1 := (C81_vector hD hN r L.stale R hro L.orderR hf).1
  have h2 := C36_consistent hN _ R h1 orderN hordN
  obtain ⟨h3, h4⟩ := h old _ U R h2
  refine ⟨?_, h4⟩
  exact C36_consistent hD _ _ ((C81_backward hD hN u _ u L.orderB L.orderB hb hb).1 _ h3) L.order hord

variable [Ring K] [Module K V] [AddCommGroup B]

/-- **C85.** `AMG::apply` on any number of processes, for every overlapping decomposition on every level, with or without redistribution
between levels, all numbers of levels and smoothing steps, every `gamma`, damping, smoother and coarse solver: let the distributed
hierarchy represent a global one. From a defect with the global values `D` (zero at the copies) it does the same as the sequential
method for the global problem: either both return, and the result is consistent, on all processes and at all their indices, with the
global multigrid cycle applied to `D`, whatever `v` and the work vectors contained before; or both throw `MathError`. -/
theorem C85_parallel_cycle {P : Nat} {L : Nat → ParLevel B V} {H : Nat → GlobalLevel B V} {coarsest : Nat} (hR : Represents P L H coarsest)
    (β : BlockAct B V V) (psolve : DVec V → DVec V → DVec V × DVec V × Bool) (solve : (Nat → V) → (Nat → V) → (Nat → V) × (Nat → V) × Bool)
    (hsol : SolverOf P (L coarsest).pis psolve solve) (damp : K) (m1 m2 gamma : Nat) (s : State (DVec V)) (t : State (Nat → V))
    (hs : s.lhs.length = coarsest + 1 ∧ s.upd.length = coarsest + 1 ∧ s.rhs.length = coarsest + 1)
    (ht : t.Sized (globalAmg β H coarsest solve damp m1 m2 gamma)) (hcv : s.conv = t.conv) (v d : DVec V) (v' D : Nat → V)
    (hd : Projected P (L 0).pis d D) :
    (∃ u s' t', pApply (overlapAmg β L coarsest psolve damp m1 m2 gamma) v d s = .ok u s' ∧
      amgApply (globalAmg β H coarsest solve damp m1 m2 gamma) v' D t =
        .ok (mg (globalAmg β H coarsest solve damp m1 m2 gamma) coarsest 0 D) t' ∧
      Consistent P (L 0).pis u (mg (globalAmg β H coarsest solve damp m1 m2 gamma) coarsest 0 D) ∧ s'.conv = t'.conv) ∨
    (∃ s' t', pApply (overlapAmg β L coarsest psolve damp m1 m2 gamma) v d s = .throw .mathError s' ∧
      amgApply (globalAmg β H coarsest solve damp m1 m2 gamma) v' D t = .throw .mathError t' ∧ s'.conv = false ∧ t'.conv = false) := by
  have hsim := overlap_simul hR β psolve solve hsol damp m1 m2 gamma
  have hmat : ∀ l x y, (globalAmg β H coarsest solve damp m1 m2 gamma).mat l (x + y) =
      (globalAmg β H coarsest solve damp m1 m2 gamma).mat l x + (globalAmg β H coarsest solve damp m1 m2 gamma).mat l y :=
    fun l x y => globalMul_add β (H l).G (H l).M x y
  rcases sim_apply hsim hs ht hcv v d v' D hd with ⟨a, b, s', t', e1, e2, h1, h2, h3⟩ | ⟨s', t', e1, e2, c1, c2⟩
  · left
    rcases C46_apply_is_the_cycle _ hmat t ht v' D with ⟨t'', e3, _⟩ | ⟨t'', e3, _⟩
    · rw [e2] at e3
      injection e3 with q1 q2
      subst q1 q2
      exact ⟨a, s', t', e1, e2, h1, h2⟩
    · rw [e2] at e3; cases e3
  · exact .inr ⟨s', t', e1, e2, c1, c2⟩

/-- **C85.** If the coarse solver always converges and has not failed before, `apply` returns and computes the global cycle. -/
theorem C85_converging {P : Nat} {L : Nat → ParLevel B V} {H : Nat → GlobalLevel B V} {coarsest : Nat} (hR : Represents P L H coarsest)
    (β : BlockAct B V V) (psolve : DVec V → DVec V → DVec V × DVec V × Bool) (solve : (Nat → V) → (Nat → V) → (Nat → V) × (Nat → V) × Bool)
    (hsol : SolverOf P (L coarsest).pis psolve solve) (hcon : ∀ b, (solve 0 b).2.2 = true) (damp : K) (m1 m2 gamma : Nat) (s : State (DVec V))
    (hs : s.lhs.length = coarsest + 1 ∧ s.upd.length = coarsest + 1 ∧ s.rhs.length = coarsest + 1) (hcv : s.conv = true) (v d : DVec V)
    (D : Nat → V) (hd : Projected P (L 0).pis d D) :
    ∃ u s', pApply (overlapAmg β L coarsest psolve damp m1 m2 gamma) v d s = .ok u s' ∧
      Consistent P (L 0).pis u (mg (globalAmg β H coarsest solve damp m1 m2 gamma) coarsest 0 D) ∧ s'.conv = true := by
  have hmat : ∀ l x y, (globalAmg β H coarsest solve damp m1 m2 gamma).mat l (x + y) =
      (globalAmg β H coarsest solve damp m1 m2 gamma).mat l x + (globalAmg β H coarsest solve damp m1 m2 gamma).mat l y :=
    fun l x y => globalMul_add β (H l).G (H l).M x y
  let t : State (Nat → V) := ⟨fineCursor, List.replicate (coarsest + 1) 0, List.replicate (coarsest + 1) 0, List.replicate (coarsest + 1) 0, true⟩
  have ht : t.Sized (globalAmg β H coarsest solve damp m1 m2 gamma) :=
    ⟨List.length_replicate, List.length_replicate, List.length_replicate⟩
  have h46 := C46_apply_is_the_cycle _ hmat t ht 0 D
  rcases C85_parallel_cycle hR β psolve solve hsol damp m1 m2 gamma s t hs ht hcv v d 0 D hd with ⟨u, s', t', e1, e2, h1, h2⟩ | ⟨s', t', e1, e2, c1, c2⟩
  · refine ⟨u, s', e1, h1, ?_⟩
    rcases h46 with ⟨t'', e3, _, _, h5⟩ | ⟨t'', e3, _⟩
    · rw [e2] at e3
      injection e3 with q1 q2
      rw [h2, q2, h5 hcon]
    · rw [e2] at e3; cases e3
  · rcases h46 with ⟨t'', e3, _⟩ | ⟨t'', e3, _, _, _, h5⟩
    · rw [e2] at e3; cases e3
    · exact absurd (h5 hcon) (by simp [t])

/-! ## A concrete case: the path 0-1-2-3 on two processes, with and without redistribution -/

/-- The aggregates are {0,1}, {2}, {3}. -/
def paF (g : Nat) : Option Nat := match g with | 0 => some 0 | 1 => some 0 | 2 => some 2 | 3 => some 3 | _ => none

/-- The coarse index sets without redistribution. -/
def paCoarse : Nat → PIS
  | 0 => [⟨0, 0, .owner⟩, ⟨2, 1, .overlap⟩, ⟨3, 2, .copy⟩]
  | _ => [⟨0, 2, .copy⟩, ⟨2, 0, .owner⟩, ⟨3, 1, .owner⟩]

/-- All unknowns on process 0. -/
def paNew : Nat → PIS
  | 0 => [⟨0, 0, .owner⟩, ⟨1, 1, .owner⟩, ⟨2, 2, .owner⟩, ⟨3, 3, .owner⟩]
  | _ => []
def paNewSz (p : Nat) : Nat := if p = 0 then 4 else 0
/-- The coarse index sets in this case. -/
def paCoarseNew : Nat → PIS
  | 0 => [⟨0, 0, .owner⟩, ⟨2, 1, .owner⟩, ⟨3, 2, .owner⟩]
  | _ => []

def paAgg : Nat → Nat → Agg
  | 0 => fun v => match v with | 0 => .id 0 | 1 => .id 0 | 2 => .id 1 | _ => .id 2
  | _ => fun v => match v with | 0 => .id 0 | 1 => .id 1 | _ => .id 2

def paOrder (q : Nat) : List Nat := if q = 0 then [1] else [0]

/-- The two levels; the smoother is the Richardson iteration. -/
def paLevel (redist : Bool) : Nat → ParLevel ℤ ℤ
  | 0 => ⟨pgPis, fun _ => 4, pgMat, fun _ _ d => d, fun _ _ d => d, if redist then some (paNew, paNewSz) else none, paAgg, paOrder,
      fun _ => [1, 0], fun _ => [0, 1], fun _ _ => 77⟩
  | _ => ⟨if redist then paCoarseNew else paCoarse, if redist then fun p => if p = 0 then 3 else 0 else fun _ => 3, fun _ => ⟨0, 0, fun _ => []⟩,
      fun _ _ d => d, fun _ _ d => d, none, paAgg, paOrder, fun _ => [], fun _ => [], fun _ _ => 77⟩

/-- The global problem. -/
def paGlobal : Nat → GlobalLevel ℤ ℤ
  | 0 => ⟨{0, 1, 2, 3}, demoM, paF, id, id⟩
  | _ => ⟨{0, 2, 3}, fun _ _ => 0, fun _ => none, id, id⟩

theorem pa_order : AllOthers 2 paOrder := fun q hq => by interval_cases q <;> decide

theorem pa_coarse (r : Bool) : Decomp 2 (paLevel r 1).pis (paLevel r 1).sz {0, 2, 3} := by
  cases r <;> exact {
    ok := fun p hp => by interval_cases p <;> exact ⟨by decide, by decide⟩
    bounded := fun p hp => by interval_cases p <;> decide
    covered := fun p hp => by interval_cases p <;> decide
    inG := fun p hp => by interval_cases p <;> decide
    owned := by decide
    unique := fun p q hp hq => by interval_cases p <;> interval_cases q <;> decide }

theorem pa_new : Decomp 2 paNew paNewSz {0, 1, 2, 3} where
  ok p hp := by interval_cases p <;> exact ⟨by decide, by decide⟩
  bounded p hp := by interval_cases p <;> decide
  covered p hp := by interval_cases p <;> decide
  inG p hp := by interval_cases p <;> decide
  owned := by decide
  unique p q hp hq := by interval_cases p <;> interval_cases q <;> decide

theorem pa_published {fine C : Nat → PIS}
    (h : ∀ p, p < 2 → ∀ e ∈ fine p, (paF e.g = none ∧ paAgg p e.loc = .iso) ∨ ∃ c ∈ C p, paF e.g = some c.g ∧ paAgg p e.loc = .id c.loc) :
    Published 2 fine C paF paAgg := by
  intro p hp e he
  rcases h p hp e he with ⟨h1, h2⟩ | ⟨c, hc, h1, h2⟩
  · rw [h1]; exact h2
  · rw [h1]; exact ⟨c, hc, rfl, h2⟩

theorem pa_complete : ∀ p < 2, ∀ c ∈ paCoarse p, c.attr ≠ .copy → ∀ g ∈ ({0, 1, 2, 3} : Finset Nat), paF g = some c.g → ∃ e ∈ pgPis p, e.g = g ∧ e.attr ≠ .copy := by
  decide

theorem pa_completeNew : ∀ p < 2, ∀ c ∈ paCoarseNew p, c.attr ≠ .copy → ∀ g ∈ ({0, 1, 2, 3} : Finset Nat), paF g = some c.g →
    ∃ e ∈ paNew p, e.g = g ∧ e.attr = .owner := by
  decide

theorem pa_transfer (r : Bool) : TransferOk 2 (paLevel r 0) (paLevel r 1).pis {0, 1, 2, 3} paF := by
  cases r
  · exact ⟨pg_decomp, pa_published (by decide), pa_complete, fun h => absurd rfl h, fun h => absurd rfl h⟩
  · exact ⟨pa_new, pa_published (by decide), pa_completeNew, fun _ q hq => by interval_cases q <;> decide, fun _ q hq => by interval_cases q <;> decide⟩

theorem pa_represents (r : Bool) : Represents 2 (paLevel r) paGlobal 1 where
  decomp l hl := by
    interval_cases l
    · cases r <;> exact pg_decomp
    · exact pa_coarse r
  order l hl := by interval_cases l <;> exact pa_order
  mat l hl := by
    interval_cases l
    cases r <;> exact pg_overlap
  preLocal l hl p v v' d d' h i hi := by interval_cases l; exact (h i hi).2
  postLocal l hl p v v' d d' h i hi := by interval_cases l; exact (h i hi).2
  pre l hl D p hp e he ho := by
    interval_cases l
    interval_cases p
    · revert ho; revert he; revert e
      show ∀ e ∈ pgPis 0, e.attr = .owner → D e.g = localView pgPis D 0 e.loc
      simp [pgPis, localView]
    · revert ho; revert he; revert e
      show ∀ e ∈ pgPis 1, e.attr = .owner → D e.g = localView pgPis D 1 e.loc
      simp [pgPis, localView]
  post l hl D p hp e he ho := by
    interval_cases l
    interval_cases p
    · revert ho; revert he; revert e
      show ∀ e ∈ pgPis 0, e.attr = .owner → D e.g = localView pgPis D 0 e.loc
      simp [pgPis, localView]
    · revert ho; revert he; revert e
      show ∀ e ∈ pgPis 1, e.attr = .owner → D e.g = localView pgPis D 1 e.loc
      simp [pgPis, localView]
  transfer l hl := by
    interval_cases l
    exact pa_transfer r

/-- The coarse solver of the example: the solution is the right hand side. -/
def paSolve {X : Type} (_ r : X) : X × X × Bool := (r, r, true)

theorem pa_solver (r : Bool) : SolverOf 2 (paLevel r 1).pis (parCoarse (paLevel r 1) paSolve) paSolve :=
  C85_coarse_solve (pa_coarse r) pa_order paSolve paSolve fun _ _ _ _ _ hr => ⟨hr, rfl⟩

/-- The defect (1,2,3,4), zero at the copies. -/
def paD : DVec ℤ
  | 0 => fun i => [1, 2, 3, 0].getD i 0
  | _ => fun i => [3, 4, 2, 0].getD i 0

theorem pa_projected (r : Bool) : Projected 2 (paLevel r 0).pis paD (fun g => (g : ℤ) + 1) := by
  intro p hp
  cases r <;> interval_cases p <;> decide

def paState : State (DVec ℤ) := ⟨⟨3, 1, 4, 1, 5, 9, 2⟩, [fun _ _ => 5, fun _ _ => 6], [fun _ _ => 7, fun _ _ => 8], [fun _ _ => 9, fun _ _ => 10], true⟩

/-- Non-vacuity: all hypotheses hold for this hierarchy, with (`r = true`) and without redistribution. -/
example (r : Bool) (v : DVec ℤ) : ∃ u s', pApply (overlapAmg intAct (paLevel r) 1 (parCoarse (paLevel r 1) paSolve) (1 : ℤ) 1 1 1) v paD paState = .ok u s' ∧
    Consistent 2 (paLevel r 0).pis u (mg (globalAmg intAct paGlobal 1 paSolve (1 : ℤ) 1 1 1) 1 0 fun g => (g : ℤ) + 1) ∧ s'.conv = true :=
  C85_converging (pa_represents r) intAct _ paSolve (pa_solver r) (fun _ => rfl) 1 1 1 1 paState ⟨rfl, rfl, rfl⟩ rfl v paD _ (pa_projected r)

/-- The global cycle in this case: (2,7,5,7). -/
theorem pa_global : (List.range 4).map (mg (globalAmg intAct paGlobal 1 paSolve (1 : ℤ) 1 1 1) 1 0 fun g => (g : ℤ) + 1) = [2, 7, 5, 7] := by
  decide +kernel

/-- Hence, in both variants, process 1 (whose local indices 0, 1 are the unknowns 2 and 3) ends with 5 and 7, although it started from another
iterate and the level vectors held other values. -/
example (r : Bool) : ∃ u s', pApply (overlapAmg intAct (paLevel r) 1 (parCoarse (paLevel r 1) paSolve) (1 : ℤ) 1 1 1) (fun _ _ => 3) paD paState = .ok u s' ∧
    u 1 0 = 5 ∧ u 1 1 = 7 ∧ u 0 0 = 2 ∧ u 0 1 = 7 := by
  obtain ⟨u, s', h1, h2, _⟩ := C85_converging (K := ℤ) (pa_represents r) intAct _ paSolve (pa_solver r) (fun _ => rfl) 1 1 1 1 paState ⟨rfl, rfl, rfl⟩ rfl
    (fun _ _ => 3) paD _ (pa_projected r)
  have g := pa_global
  simp only [List.range, List.range.loop, List.map, List.cons.injEq, and_true] at g
  have h2' : Consistent 2 pgPis u (mg (globalAmg intAct paGlobal 1 paSolve (1 : ℤ) 1 1 1) 1 0 fun g => (g : ℤ) + 1) := by
    cases r <;> exact h2
  refine ⟨u, s', h1, ?_, ?_, ?_, ?_⟩
  · rw [← g.2.2.1]; exact h2' 1 (by decide) ⟨2, 0, .owner⟩ (by decide)
  · rw [← g.2.2.2]; exact h2' 1 (by decide) ⟨3, 1, .owner⟩ (by decide)
  · rw [← g.1]; exact h2' 0 (by decide) ⟨0, 0, .owner⟩ (by decide)
  · rw [← g.2.1]; exact h2' 0 (by decide) ⟨1, 1, .owner⟩ (by decide)

end Amg
end Istl
