import Verif.Lemmas.ParHierarchy2
import Verif.Props.C85

/-! # C86 — the hierarchy built on several processes is the Galerkin hierarchy of the global matrix -/

namespace Istl
namespace Amg
open Par Finset
variable {B V K : Type} [AddCommGroup B]

/-- **Building succeeds**: for every distributed matrix with complete overlap rows, whatever the aggregation, the criterion and the orders
of arrival, all processes get through every level without a throw, an access out of range or an endless loop. -/
theorem C86_build_returns {c : HierEnv B} (ha : AggrOk c.aggr) (o1 : AllArrive c.P c.order) (o2 : AllArrive c.P c.order')
    (o3 : AllArrive c.P c.order'') {A : DistLevel B} {𝒢 : Finset Nat} {M : Nat → Nat → B} (hA : Holding c.P A 𝒢 M) :
    ∃ lv last, BuildRun c A lv last :=
  run_exists ha o1 o2 o3 _ _ _ hA

/-- **Galerkin**: in every run the finest level is the given one, there are at most `maxLevel` coarser ones, and there are global index
sets `G l`, matrices `Ms l` and maps `F l` such that every process holds the rows of `Ms l` at its owner and overlap indices, every index
of `G l` has exactly one owner, `Ms (l+1)` is the Galerkin product of `Ms l` for `F l` on the range of `F l`, and the aggregates maps of
all processes are `F l` seen in local numbers. -/
theorem C86_galerkin {c : HierEnv B} (ha : AggrOk c.aggr) (o1 : AllArrive c.P c.order) (o2 : AllArrive c.P c.order')
    (o3 : AllArrive c.P c.order'') {A : DistLevel B} {𝒢 : Finset Nat} {M : Nat → Nat → B} (hA : Holding c.P A 𝒢 M)
    {lv : List (DistLevel B × (Nat → Nat → Agg))} {last : DistLevel B} (hr : BuildRun c A lv last) :
    levelAt lv last 0 = A ∧ lv.length ≤ c.crit.maxLevel ∧
    ∃ (G : Nat → Finset Nat) (Ms : Nat → Nat → Nat → B) (F : Nat → Nat → Option Nat), G 0 = 𝒢 ∧ Ms 0 = M ∧
      (∀ l, l < lv.length → G (l + 1) = coarseSet (G l) (F l) ∧ Ms (l + 1) = coarseMat (G l) (F l) (Ms l)) ∧
      (∀ l, l ≤ lv.length → Decomp c.P (levelAt lv last l).pis (levelAt lv last l).sz (G l) ∧
        OverlapMat c.P (levelAt lv last l).pis (levelAt lv last l).sz (G l) (levelAt lv last l).mat (Ms l)) ∧
      (∀ l, l < lv.length → Published c.P (levelAt lv last l).pis (levelAt lv last (l + 1)).pis (F l) (mapAt lv l)) := by
  obtain ⟨G, Ms, F, h1, h2, h3, h4, h5, h6, h7, -⟩ := run_spec ha o1 o2 o3 hr hA
  exact ⟨h3, h4, G, Ms, F, h1, h2, h5, fun l hl => ⟨(h6 l hl).decomp, (h6 l hl).rows⟩, fun l hl => (h7 l hl).published⟩

/-- **Sizes**: a level is coarsened only if it has more than `coarsenTarget` unknowns and the next one has at most `1/minRate` of them, and
at least one. Coarse levels are counted by their indices; on the finest level all unknowns stored on any process are counted, so indices
in the overlap several times. Building stops only if there are `maxLevel` levels, the last one is small, or the next one would not be
smaller by the factor `minRate`. -/
theorem C86_sizes {c : HierEnv B} (ha : AggrOk c.aggr) (o1 : AllArrive c.P c.order) (o2 : AllArrive c.P c.order')
    (o3 : AllArrive c.P c.order'') {A : DistLevel B} {𝒢 : Finset Nat} {M : Nat → Nat → B} (hA : Holding c.P A 𝒢 M)
    {lv : List (DistLevel B × (Nat → Nat → Agg))} {last : DistLevel B} (hr : BuildRun c A lv last) :
    ∃ (G : Nat → Finset Nat) (count : Nat → Nat), G 0 = 𝒢 ∧
      (∀ l, l ≤ lv.length → Decomp c.P (levelAt lv last l).pis (levelAt lv last l).sz (G l)) ∧
      count 0 = ∑ p ∈ Finset.range c.P, A.sz p ∧ (∀ l, 0 < l → count l = (G l).card) ∧
      (∀ l, l < lv.length → c.crit.coarsenTarget < count l ∧ 0 < count (l + 1) ∧ c.crit.minRate * count (l + 1) ≤ count l) ∧
      (lv.length = c.crit.maxLevel ∨ (count lv.length : Int) ≤ c.crit.coarsenTarget ∨
        rateBreakdown c.crit (count lv.length) (c.noAggregates lv.length last)) := by
  obtain ⟨G, Ms, F, h1, -, -, h4, -, h6, -, h8, h9⟩ := run_spec ha o1 o2 o3 hr hA
  have hu : (c.sum fun p => (A.mat p).n) = ∑ p ∈ Finset.range c.P, A.sz p := by
    have hsum : ∀ n, n ≤ c.P → ((List.range n).map fun p => (A.mat p).n).sum = ∑ i ∈ Finset.range n, A.sz i := by
      intro n
      induction n with
      | zero => intro; rfl
      | succ n ih =>
        intro hn
        rw [List.range_succ, List.map_append, List.sum_append, ih (by omega), Finset.sum_range_succ]
        simp [hA.rows.rows n (by omega)]
    exact hsum c.P (le_refl _)
  refine ⟨G, fun l => if l = 0 then ∑ p ∈ Finset.range c.P, A.sz p else (G l).card, h1, fun l hl => (h6 l hl).decomp, if_pos rfl,
    fun l hl => if_neg (by omega), ?_, ?_⟩
  · intro l hl
    obtain ⟨q1, q2⟩ := h8 l hl
    rw [hu] at q1 q2
    dsimp only
    rw [if_neg (Nat.succ_ne_zero l)]
    unfold rateBreakdown at q2
    rw [not_or, not_lt] at q2
    have hpos : 0 < (G (l + 1)).card := Nat.pos_of_ne_zero q2.1
    refine ⟨q1, hpos, ?_⟩
    rw [le_div_iff₀ (by exact_mod_cast hpos)] at q2
    exact q2.2
  · rw [hu, Nat.zero_add] at h9
    exact h9

theorem sum_bind {G : Finset Nat} {F F' : Nat → Option Nat} {W : Type} [AddCommMonoid W] (k : Nat) {g : Nat} (hg : g ∈ G) (x : Nat → W) :
    (∑ I ∈ coarseSet G F, if F' I = some k then (if F g = some I then x g else 0) else 0) = if (F g).bind F' = some k then x g else 0 := by
  cases hF : F g with
  | none => simp
  | some J =>
    have hJ : J ∈ coarseSet G F := Finset.mem_eraseNone.mpr (Finset.mem_image.mpr ⟨g, hg, hF⟩)
    rw [Finset.sum_eq_single J]
    · simp
    · intro I _ hne
      rw [if_neg (show ¬ some J = some I by simpa using Ne.symm hne)]
      exact ite_self _
    · exact fun h => absurd hJ h

/-- **Levels compose**: the Galerkin product of a Galerkin product is the Galerkin product for the composed map. -/
theorem C86_compose (G : Finset Nat) (F F' : Nat → Option Nat) (M : Nat → Nat → B) :
    coarseMat (coarseSet G F) F' (coarseMat G F M) = coarseMat G (fun g => (F g).bind F') M := by
  funext k k'
  have hsplit : ∀ (p q : Prop) [Decidable p] [Decidable q] (x : B), (if p ∧ q then x else 0) = if p then (if q then x else 0) else 0 := by
    intro p q _ _ x
    by_cases h : p
    · by_cases h' : q
      · rw [if_pos ⟨h, h'⟩, if_pos h, if_pos h']
      · rw [if_neg (fun hh => h' hh.2), if_pos h, if_neg h']
    · rw [if_neg (fun hh => h hh.1), if_neg h]
  unfold coarseMat
  calc (∑ I ∈ coarseSet G F, ∑ J ∈ coarseSet G F, if F' I = some k ∧ F' J = some k' then
          ∑ g ∈ G, ∑ h ∈ G, if F g = some I ∧ F h = some J then M g h else 0 else 0)
      = ∑ I ∈ coarseSet G F, ∑ J ∈ coarseSet G F, ∑ g ∈ G, ∑ h ∈ G,
          if F' I = some k then (if F g = some I then (if F' J = some k' then (if F h = some J then M g h else 0) else 0) else 0) else 0 := by
        refine Finset.sum_congr rfl fun I _ => Finset.sum_congr rfl fun J _ => ?_
        by_cases h1 : F' I = some k <;> by_cases h2 : F' J = some k' <;> simp [h1, h2, hsplit]
    _ = ∑ g ∈ G, ∑ h ∈ G, ∑ I ∈ coarseSet G F, ∑ J ∈ coarseSet G F,
          if F' I = some k then (if F g = some I then (if F' J = some k' then (if F h = some J then M g h else 0) else 0) else 0) else 0 := by
        have : ∀ (f : Nat → Nat → Nat → Nat → B), (∑ I ∈ coarseSet G F, ∑ J ∈ coarseSet G F, ∑ g ∈ G, ∑ h ∈ G, f I J g h) =
            ∑ g ∈ G, ∑ h ∈ G, ∑ I ∈ coarseSet G F, ∑ J ∈ coarseSet G F, f I J g h := by
          intro f
          have e1 : ∀ I, (∑ J ∈ coarseSet G F, ∑ g ∈ G, ∑ h ∈ G, f I J g h) = ∑ g ∈ G, ∑ h ∈ G, ∑ J ∈ coarseSet G F, f I J g h := by
            intro I
            rw [Finset.sum_comm]
            exact Finset.sum_congr rfl fun g _ => Finset.sum_comm
          rw [Finset.sum_congr rfl fun I _ => e1 I, Finset.sum_comm]
          exact Finset.sum_congr rfl fun g _ => Finset.sum_comm
        exact this _
    _ = ∑ g ∈ G, ∑ h ∈ G, if (F g).bind F' = some k ∧ (F h).bind F' = some k' then M g h else 0 := by
        refine Finset.sum_congr rfl fun g hg => Finset.sum_congr rfl fun h hh => ?_
        have e : ∀ I, (∑ J ∈ coarseSet G F, if F' I = some k then (if F g = some I then
            (if F' J = some k' then (if F h = some J then M g h else 0) else 0) else 0) else 0) =
            if F' I = some k then (if F g = some I then (if (F h).bind F' = some k' then M g h else 0) else 0) else 0 := by
          intro I
          by_cases h1 : F' I = some k
          · by_cases h2 : F g = some I
            · simp only [if_pos h1, if_pos h2]
              exact sum_bind k' hh fun h => M g h
            · simp [h2]
          · simp [h1]
        rw [Finset.sum_congr rfl fun I _ => e I, hsplit]
        exact sum_bind k hg fun g => if (F h).bind F' = some k' then M g h else 0

/-- The coarse index a fine index ends in after `l` levels. -/
def clusterOf (F : Nat → Nat → Option Nat) : Nat → Nat → Option Nat
  | 0, g => some g
  | l + 1, g => (clusterOf F l g).bind (F l)

/-- **Entries**: on every level each entry of the matrix is the sum of the entries of the finest matrix between two clusters. -/
theorem C86_entries {c : HierEnv B} (ha : AggrOk c.aggr) (o1 : AllArrive c.P c.order) (o2 : AllArrive c.P c.order')
    (o3 : AllArrive c.P c.order'') {A : DistLevel B} {𝒢 : Finset Nat} {M : Nat → Nat → B} (hA : Holding c.P A 𝒢 M)
    {lv : List (DistLevel B × (Nat → Nat → Agg))} {last : DistLevel B} (hr : BuildRun c A lv last) :
    ∃ F : Nat → Nat → Option Nat, ∀ l, l ≤ lv.length → ∀ p, p < c.P → ∀ e ∈ (levelAt lv last l).pis p, e.attr ≠ .copy →
      ∀ f ∈ (levelAt lv last l).pis p, ((levelAt lv last l).mat p).entry e.loc f.loc =
        ∑ g ∈ 𝒢, ∑ h ∈ 𝒢, if clusterOf F l g = some e.g ∧ clusterOf F l h = some f.g then M g h else 0 := by
  obtain ⟨-, -, G, Ms, F, g0, m0, hG, hH, -⟩ := C86_galerkin ha o1 o2 o3 hA hr
  refine ⟨F, ?_⟩
  have key : ∀ l, l ≤ lv.length → G l = coarseSet 𝒢 (clusterOf F l) ∧ ∀ I ∈ G l, ∀ J ∈ G l, Ms l I J = coarseMat 𝒢 (clusterOf F l) M I J := by
    intro l
    induction l with
    | zero =>
      intro _
      constructor
      · ext I
        simp [g0, coarseSet, clusterOf, Finset.mem_eraseNone]
      · intro I hI J hJ
        rw [g0] at hI hJ
        rw [m0]
        unfold coarseMat clusterOf
        rw [Finset.sum_eq_single I, Finset.sum_eq_single J]
        · simp
        · intro h _ hne; rw [if_neg]; simp [hne]
        · exact fun h => absurd hJ h
        · intro g _ hne
          refine Finset.sum_eq_zero fun h _ => ?_
          rw [if_neg]; simp [hne]
        · exact fun h => absurd hI h
    | succ l ih =>
      intro hl
      obtain ⟨i1, i2⟩ := ih (by omega)
      obtain ⟨h1, h2⟩ := hG l (by omega)
      constructor
      · rw [h1, i1]
        ext I
        simp only [coarseSet, Finset.mem_eraseNone, Finset.mem_image, clusterOf, Option.bind_eq_some_iff]
        constructor
        · rintro ⟨J, ⟨g, hg, hJ⟩, hI⟩; exact ⟨g, hg, J, hJ, hI⟩
        · rintro ⟨g, hg, J, hJ, hI⟩; exact ⟨J, ⟨g, hg, hJ⟩, hI⟩
      · intro I _ J _
        have e : coarseMat (G l) (F l) (Ms l) = coarseMat (coarseSet 𝒢 (clusterOf F l)) (F l) (coarseMat 𝒢 (clusterOf F l) M) := by
          rw [← i1]
          funext a b
          unfold coarseMat
          refine Finset.sum_congr rfl fun g hg => Finset.sum_congr rfl fun h hh => ?_
          rw [i2 g hg h hh]
          rfl
        rw [h2, e, C86_compose]
        rfl
  intro l hl p hp e he hc f hf
  obtain ⟨hD, hO⟩ := hH l hl
  rw [hO.entry p hp e he hc f hf, (key l hl).2 _ (hD.inG p hp e he) _ (hD.inG p hp f hf)]
  rfl

variable [AddCommGroup V] [Ring K] [Module K V]

/-- The levels of the hierarchy as the cycle uses them, with smoothers and orders of arrival. -/
def hierLevel (lv : List (DistLevel B × (Nat → Nat → Agg))) (last : DistLevel B) (pre post : Nat → Nat → (Nat → V) → (Nat → V) → (Nat → V))
    (order : Nat → Nat → List Nat) (l : Nat) : ParLevel B V :=
  ⟨(levelAt lv last l).pis, (levelAt lv last l).sz, (levelAt lv last l).mat, pre l, post l, none, mapAt lv l, order l, fun _ => [], fun _ => [],
    fun _ _ => 0⟩

/-- **The solver**: with the hierarchy that was built and any local smoothers, `AMG::apply` on all processes computes the multigrid cycle of
the global Galerkin hierarchy: the hypotheses of C85 hold. -/
theorem C86_represents {c : HierEnv B} (ha : AggrOk c.aggr) (o1 : AllArrive c.P c.order) (o2 : AllArrive c.P c.order')
    (o3 : AllArrive c.P c.order'') {A : DistLevel B} {𝒢 : Finset Nat} {M : Nat → Nat → B} (hA : Holding c.P A 𝒢 M)
    {lv : List (DistLevel B × (Nat → Nat → Agg))} {last : DistLevel B} (hr : BuildRun c A lv last)
    (pre post : Nat → Nat → (Nat → V) → (Nat → V) → (Nat → V)) (h1 : ∀ l, l < lv.length → LocalPrec (levelAt lv last l).sz (pre l))
    (h2 : ∀ l, l < lv.length → LocalPrec (levelAt lv last l).sz (post l)) (order : Nat → Nat → List Nat) (ho : AllArrive c.P order) :
    ∃ H : Nat → GlobalLevel B V, (H 0).G = 𝒢 ∧ (H 0).M = M ∧
      (∀ l, l < lv.length → (H (l + 1)).G = coarseSet (H l).G (H l).F ∧ (H (l + 1)).M = coarseMat (H l).G (H l).F (H l).M) ∧
      Represents c.P (hierLevel lv last pre post order) H lv.length := by
  obtain ⟨G, Ms, F, g0, m0, -, -, hG, hH, hL, -⟩ := run_spec ha o1 o2 o3 hr hA
  have hW : ∀ l, ∃ W W', l < lv.length → SmootherOf c.P (levelAt lv last l).pis (pre l) W ∧ SmootherOf c.P (levelAt lv last l).pis (post l) W' := by
    intro l
    by_cases hl : l < lv.length
    · obtain ⟨W, hW⟩ := smoother_exists (hH l (by omega)).decomp (pre l)
      obtain ⟨W', hW'⟩ := smoother_exists (hH l (by omega)).decomp (post l)
      exact ⟨W, W', fun _ => ⟨hW, hW'⟩⟩
    · exact ⟨id, id, fun h => absurd h hl⟩
  choose W W' hWW using hW
  refine ⟨fun l => ⟨G l, Ms l, F l, W l, W' l⟩, g0, m0, hG, ?_⟩
  exact {
    decomp := fun l hl => (hH l hl).decomp
    order := fun l _ => ho l
    mat := fun l hl => (hH l (by omega)).rows
    preLocal := h1
    postLocal := h2
    pre := fun l hl => (hWW l hl).1
    post := fun l hl => (hWW l hl).2
    transfer := fun l hl => ⟨(hH l (by omega)).decomp, (hL l hl).published, (hL l hl).complete, fun h => absurd rfl h, fun h => absurd rfl h⟩ }

theorem levelAt_last (last : DistLevel B) : ∀ lv : List (DistLevel B × (Nat → Nat → Agg)), levelAt lv last lv.length = last
  | [] => rfl
  | _ :: lv => levelAt_last last lv

/-- **From build to apply**: build the hierarchy of a distributed matrix in any way, take any local smoothers and a coarse solver that
solves on the coarsest index sets what its global counterpart solves (C85_coarse_solve) and converges. There is a global Galerkin
hierarchy, starting with the global matrix, such that `AMG::apply` returns on all processes, for every start vector, every content of
the work vectors and every defect, with the values of its multigrid cycle. -/
theorem C86_apply {c : HierEnv B} (ha : AggrOk c.aggr) (o1 : AllArrive c.P c.order) (o2 : AllArrive c.P c.order')
    (o3 : AllArrive c.P c.order'') {A : DistLevel B} {𝒢 : Finset Nat} {M : Nat → Nat → B} (hA : Holding c.P A 𝒢 M)
    {lv : List (DistLevel B × (Nat → Nat → Agg))} {last : DistLevel B} (hr : BuildRun c A lv last)
    (pre post : Nat → Nat → (Nat → V) → (Nat → V) → (Nat → V)) (h1 : ∀ l, l < lv.length → LocalPrec (levelAt lv last l).sz (pre l))
    (h2 : ∀ l, l < lv.length → LocalPrec (levelAt lv last l).sz (post l)) (order : Nat → Nat → List Nat) (ho : AllArrive c.P order)
    (β : BlockAct B V V) (psolve : DVec V → DVec V → DVec V × DVec V × Bool) (solve : (Nat → V) → (Nat → V) → (Nat → V) × (Nat → V) × Bool)
    (hsol : SolverOf c.P last.pis psolve solve) (hcon : ∀ b, (solve 0 b).2.2 = true) (damp : K) (m1 m2 gamma : Nat) :
    ∃ H : Nat → GlobalLevel B V, (H 0).G = 𝒢 ∧ (H 0).M = M ∧
      (∀ l, l < lv.length → (H (l + 1)).G = coarseSet (H l).G (H l).F ∧ (H (l + 1)).M = coarseMat (H l).G (H l).F (H l).M) ∧
      ∀ (s : State (DVec V)) (v d : DVec V) (D : Nat → V), s.lhs.length = lv.length + 1 ∧ s.upd.length = lv.length + 1 ∧
        s.rhs.length = lv.length + 1 → s.conv = true → Projected c.P A.pis d D →
        ∃ u s', pApply (overlapAmg β (hierLevel lv last pre post order) lv.length psolve damp m1 m2 gamma) v d s = .ok u s' ∧
          Consistent c.P A.pis u (mg (globalAmg β H lv.length solve damp m1 m2 gamma) lv.length 0 D) := by
  obtain ⟨H, g0, m0, hG, hR⟩ := C86_represents ha o1 o2 o3 hA hr pre post h1 h2 order ho
  refine ⟨H, g0, m0, hG, fun s v d D hs hcv hd => ?_⟩
  have e0 : levelAt lv last 0 = A := (C86_galerkin ha o1 o2 o3 hA hr).1
  have hsol' : SolverOf c.P (hierLevel lv last pre post order lv.length).pis psolve solve := by
    show SolverOf c.P (levelAt lv last lv.length).pis psolve solve
    rw [levelAt_last]; exact hsol
  have hd' : Projected c.P (hierLevel lv last pre post order 0).pis d D := by
    show Projected c.P (levelAt lv last 0).pis d D
    rw [e0]; exact hd
  obtain ⟨u, s', q1, q2, -⟩ := C85_converging hR β psolve solve hsol' hcon damp m1 m2 gamma s hs hcv v d D hd'
  refine ⟨u, s', q1, ?_⟩
  have q3 : Consistent c.P (levelAt lv last 0).pis u (mg (globalAmg β H lv.length solve damp m1 m2 gamma) lv.length 0 D) := q2
  rw [e0] at q3
  exact q3

/-! ## A concrete case: the path 0-1-2-3 on two processes -/

/-- Vertices 0 and 1 are in the index set as owners, and row 0 has an entry in column 1. -/
def phMerge (A : PIS) (M : SpMat ℤ) : Bool :=
  decide (1 < M.n) && (A.any fun e => e.loc == 0 && e.attr == .owner) && (A.any fun e => e.loc == 1 && e.attr == .owner) && ((M.row 0).any fun x => x.1 == 1)

/-- Vertices 0 and 1 make an aggregate if they are owned and coupled; all others are alone. -/
def phAgg (A : PIS) (M : SpMat ℤ) (v : Nat) : Agg := if v = 1 ∧ phMerge A M = true then .id 0 else .id v

def phAggr (_ : Bool) (_ : Nat) (A : PIS) (M : SpMat ℤ) : (Nat → Agg) × Nat := (phAgg A M, (ownAggs A (phAgg A M)).card)

theorem ph_ok : AggrOk phAggr := by
  intro b p A M gr hwf hgr hA _ _ _
  refine ⟨?_, ?_, rfl⟩
  · unfold matrixGraph at hgr
    split at hgr
    · cases hgr
    injection hgr with hgr
    intro f v hf hv hfirst heq
    rw [← hgr] at hf hv ⊢
    have hff : ¬ Foreign A f := fun h => by
      have := hfirst.1
      simp [ownMap, h] at this
    have e1 : ownMap A (phAgg A M) f = phAgg A M f := by unfold ownMap; rw [if_neg hff]
    have hvf : ¬ Foreign A v := fun h => by
      have h2 : ownMap A (phAgg A M) v = .iso := by unfold ownMap; rw [if_pos h]
      have h3 : ownMap A (phAgg A M) v = ownMap A (phAgg A M) f := heq
      rw [h2, e1] at h3
      unfold phAgg at h3
      split at h3 <;> cases h3
    have e2 : ownMap A (phAgg A M) v = phAgg A M v := by unfold ownMap; rw [if_neg hvf]
    have h3 : phAgg A M v = phAgg A M f := by rw [← e1, ← e2]; exact heq
    by_cases hvf' : v = f
    · subst hvf'; exact .refl
    by_cases hm : phMerge A M = true
    · simp only [phAgg, hm, and_true] at h3
      by_cases hv1 : v = 1
      · have hf0 : f = 0 := by
          have : f ≠ 1 := fun h => hvf' (by rw [hv1, h])
          simp only [hv1, if_true, if_neg this] at h3
          simpa using h3.symm
        subst hv1 hf0
        refine .single ⟨?_, heq⟩
        simp only [phMerge, Bool.and_eq_true, List.any_eq_true] at hm
        obtain ⟨-, x, hx, hx1⟩ := hm
        simp only [beq_iff_eq] at hx1
        show 1 ∈ (matrixEdges M 0).map Prod.fst
        rw [matrixEdges_targets M 0 (hwf 0 (by simpa using hf)).1]
        exact List.mem_filter.mpr ⟨List.mem_map.mpr ⟨x, hx, hx1⟩, by simp⟩
      · by_cases hf1 : f = 1
        · -- vertex 0 would be the first one
          simp only [if_neg hv1, hf1, if_true] at h3
          have hv0 : v = 0 := by simpa using h3
          exfalso
          refine hfirst.2 v (by omega) ?_
          exact heq
        · simp only [if_neg hv1, if_neg hf1] at h3
          exact absurd (by simpa using h3) hvf'
    · simp only [phAgg, hm, and_false, if_false] at h3
      exact absurd (by simpa using h3) hvf'
  · intro e _ _
    show phAgg A M e.loc ≠ .unagg
    unfold phAgg
    split <;> simp

def phEnv : HierEnv ℤ where
  P := 2
  crit := ⟨1, 1, 3 / 2⟩
  aggr := phAggr
  pub _ _ _ := false
  order _ := paOrder
  order' _ := paOrder
  order'' _ := paOrder
  junk _ _ := 99
  novlp := false

def phLevel : DistLevel ℤ := ⟨pgPis, fun _ => 4, pgMat⟩

theorem ph_symm : ∀ p, p < 2 → ∀ e ∈ pgPis p, e.attr = .owner → ∀ f ∈ pgPis p, f.attr = .owner → (pgMat p).Has e.loc f.loc →
    (pgMat p).Has f.loc e.loc := by
  have h : ∀ p < 2, ∀ e ∈ pgPis p, e.attr = .owner → ∀ f ∈ pgPis p, f.attr = .owner → f.loc ∈ ((pgMat p).row e.loc).map Prod.fst →
      f.loc < (pgMat p).n ∧ e.loc ∈ ((pgMat p).row f.loc).map Prod.fst := by decide
  rintro p hp e he ho f hf ho' ⟨-, b, hb⟩
  obtain ⟨h1, h2⟩ := h p hp e he ho f hf ho' (List.mem_map.mpr ⟨_, hb, rfl⟩)
  obtain ⟨⟨x, y⟩, hx, rfl⟩ := List.mem_map.mp h2
  exact ⟨h1, y, hx⟩

theorem ph_holding : Holding 2 phLevel {0, 1, 2, 3} demoM := ⟨pg_decomp, pg_overlap, ⟨_, pg_pat⟩, ph_symm⟩

/-- Non-vacuity: a run exists, it has a second level, and with the Richardson smoother it represents a global Galerkin hierarchy. -/
example : ∃ lv last, BuildRun phEnv phLevel lv last ∧ lv.length = 1 ∧ ∃ H : Nat → GlobalLevel ℤ ℤ, (H 0).M = demoM ∧
    (H 1).M = coarseMat {0, 1, 2, 3} (H 0).F demoM ∧ (H 1).G.card = 2 ∧
    Represents 2 (hierLevel lv last (fun _ _ _ d => d) (fun _ _ _ d => d) fun _ => paOrder) H lv.length := by
  have ho : AllArrive phEnv.P fun _ => paOrder := fun _ => pa_order
  obtain ⟨lv, last, hr⟩ := C86_build_returns (c := phEnv) ph_ok ho ho ho ph_holding
  have hlen : lv.length = 1 := by
    have h : HierRun phEnv 1 0 phLevel 8 lv last := hr
    cases h with
    | small _ _ _ _ h => exact absurd h (by decide)
    | breakdown _ _ _ _ h hb =>
      have : phEnv.noAggregates 0 phLevel = 2 := by decide +kernel
      rw [this] at hb
      unfold rateBreakdown phEnv at hb
      norm_num at hb
    | coarsen _ _ _ _ A' m lv' _ h hb hc hn =>
      cases hn
      rfl
  refine ⟨lv, last, hr, hlen, ?_⟩
  obtain ⟨H, g0, m0, hG, hR⟩ := C86_represents (V := ℤ) (c := phEnv) ph_ok ho ho ho ph_holding hr (fun _ _ _ d => d) (fun _ _ _ d => d)
    (fun _ _ _ _ _ _ _ h i hi => (h i hi).2) (fun _ _ _ _ _ _ _ h i hi => (h i hi).2) (fun _ => paOrder) ho
  refine ⟨H, m0, ?_, ?_, hR⟩
  · rw [(hG 0 (by omega)).2, g0, m0]
  · obtain ⟨G2, Ms2, F2, g2, -, -, -, h5, h6, h7, -⟩ := run_spec (c := phEnv) ph_ok ho ho ho hr ph_holding
    have e1 : (H 1).G = G2 1 := by
      have d1 := hR.decomp 1 (by omega)
      have d2 := (h6 1 (by omega)).decomp
      ext I
      constructor
      · intro hI
        obtain ⟨p, hp, e, he, rfl, -⟩ := d1.owned I hI
        exact d2.inG p hp e he
      · intro hI
        obtain ⟨p, hp, e, he, rfl, -⟩ := d2.owned I hI
        exact d1.inG p hp e he
    have := (h7 0 (by omega)).card
    rw [e1, (h5 0 (by omega)).1, ← this]
    have h0 : levelAt lv last 0 = phLevel := (C86_galerkin (c := phEnv) ph_ok ho ho ho ph_holding hr).1
    rw [h0]
    decide +kernel

end Amg
end Istl
