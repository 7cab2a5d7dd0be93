import Verif.Lemmas.ParGalerkin3

/-! # C73 — the coarse matrices of all processes together are the Galerkin product of the distributed matrix -/

namespace Istl
namespace Amg
open Finset MatMat Par

variable {B : Type} [AddCommGroup B]

/-- **Pattern, one process**: whatever order `std::sort` leaves the overlap vertices in, for both categories, if the aggregates are
numbered as `OwnFirst` says then `build` terminates without undefined behaviour and gives one row per aggregate (own and foreign): its
columns are the aggregate itself and exactly the aggregates coupled to it by the local matrix, in ascending order. -/
theorem C73_pattern {G : Graph} (hG : G.WF) {A : PIS} (hA : PisOk A) {m : Nat → Agg} {k N : Nat} (hO : OwnFirst G A m k N)
    {ov : List Nat} (hov : Sorted A G.n m ov) (novlp : Bool) {fuel : Nat} (hf : G.n + 1 ≤ fuel) :
    ∃ rows, parBuild G fuel A m N novlp ov = some (.ok rows) ∧ rows.length = N ∧
      ∀ (a : Nat) (r : List Nat), rows[a]? = some r → r.Pairwise (· < ·) ∧ ∀ b, b ∈ r ↔ (b = a ∨ Coupled G m a b) :=
  parBuild_spec hG hA hO hov novlp hf

/-- **All processes**: let the local matrices hold the rows of a global matrix `M` at the owned indices. However the unknowns are
distributed, whatever (connected) aggregates the processes have built, whatever the order of all messages and of the overlap vertices,
and for both categories: coarsening, publishing, building the pattern and computing the entries succeed on every process. Then there is
one map `F` from fine to coarse indices, which all processes know, such that the coarse index sets are a decomposition of its range, the
pattern of the coarse matrices is that of the aggregates (plus the diagonal), and they hold
the rows of the Galerkin product of `M` at the owned indices; its diagonal entries are held by all processes knowing the index. If
moreover the rows of overlap indices are complete on the fine level and the couplings are symmetric, they are complete on the coarse
level too. -/
theorem C73_galerkin {P : Nat} {pis : Nat → PIS} {sz : Nat → Nat} {𝒢 : Finset Nat} (hD : Decomp P pis sz 𝒢) {A : Nat → SpMat B}
    {M : Nat → Nat → B} (hM : DistMat (· = .owner) P pis sz 𝒢 A M) {gr : Nat → Graph} (hgr : ∀ p, p < P → matrixGraph (A p) = .ok (gr p))
    (agg : Nat → Nat → Agg) (hc : ∀ p, p < P → OwnConnected (gr p) (pis p) (agg p)) (pub : Nat → Nat → Bool) (fuel : Nat → Nat)
    (hf : ∀ p, p < P → sz p + 1 ≤ fuel p) (junk : Nat → B) (order order' order'' : Nat → List Nat)
    (hord : ∀ q, q < P → (order q).Perm ((List.range P).filter (· ≠ q)))
    (hord' : ∀ q, q < P → (order' q).Perm ((List.range P).filter (· ≠ q)))
    (hord'' : ∀ q, q < P → (order'' q).Perm ((List.range P).filter (· ≠ q))) :
    ∃ (s : Nat → CoSt) (R : Nat → Nat → List (Idx × Attr)) (C : Nat → PIS) (N : Nat → Nat) (F : Nat → Option Nat) (agg' : Nat → Nat → Agg),
      (∀ p, p < P → buildCoarse (gr p) (pis p) (pub p) (fuel p) (agg p) = some (.ok (s p))) ∧
      (∀ p q, p < P → q < P → p ≠ q →
        coarseRemote (s p).number (s p).agg (remoteList (pis p) (pis q)) (s p).indices = .ok (R p q)) ∧
      (∀ q, q < P → sync (s q).indices (s q).number ((order q).map fun p => R p q) = (C q, N q)) ∧
      (∀ q, q < P → publishOwner pis C (fun p => (s p).agg) q (order' q) = .ok (agg' q)) ∧
      Coarsening P pis sz agg C N F ∧ Published P pis C F agg' ∧ Decomp P C N (coarseSet 𝒢 F) ∧
      ∀ (novlp : Bool) (ov : Nat → List Nat), (∀ p, p < P → Sorted (pis p) (sz p) (agg' p) (ov p)) →
        ∃ (rows : Nat → List (List Nat)) (rs : Nat → List B) (D : Nat → SpMat B),
          (∀ p, p < P → parBuild (gr p) (fuel p) (pis p) (agg' p) (N p) novlp (ov p) = some (.ok (rows p))) ∧
          (∀ p, p < P → galerkinDiag (A p) ((List.range (A p).n).map (agg' p)) (patternMat (N p) (rows p) (junk p)) = .ok (rs p)) ∧
          (∀ p, p < P → parCalculate C rs p (order'' p) (A p) ((List.range (A p).n).map (agg' p)) (patternMat (N p) (rows p) (junk p)) =
            .ok (D p)) ∧
          (∀ p, p < P → ∀ a, a < N p → ∀ b, (D p).Has a b ↔ (b = a ∨ ∃ i j, (A p).Has i j ∧ agg' p i = .id a ∧ agg' p j = .id b)) ∧
          DistMat (· = .owner) P C N (coarseSet 𝒢 F) D (coarseMat 𝒢 F M) ∧
          (∀ p, p < P → ∀ c ∈ C p, (D p).entry c.loc c.loc = coarseMat 𝒢 F M c.g c.g) ∧
          ∀ S, OverlapPat P pis A S → OverlapMat P pis sz 𝒢 A M → OverlapMat P C N (coarseSet 𝒢 F) D (coarseMat 𝒢 F M) := by
  have hn : ∀ p, p < P → (gr p).n = sz p := fun p hp => by
    rw [(matrixGraph_wf (A p) (hM.wf p hp) (gr p) (hgr p hp)).2.1, hM.rows p hp]
  have hS : Shared P pis fun p => (gr p).n :=
    ⟨hD.ok, fun p hp e he => by rw [hn p hp]; exact hD.bounded p hp e he, fun p hp e he => hD.owned e.g (hD.inG p hp e he), hD.unique⟩
  have hwf : ∀ p, p < P → (gr p).WF := fun p hp => (matrixGraph_wf (A p) (hM.wf p hp) (gr p) (hgr p hp)).2.2.1
  obtain ⟨s, R, C, N, F, agg', h1, h2, h3, h4, hK0, hP, hkeep, hnum⟩ := C72_consistent P pis gr pub agg fuel hS hwf hc
    (fun p hp => by rw [hn p hp]; exact hf p hp) order order' hord hord'
  have hK : Coarsening P pis sz agg C N F := ⟨hK0.shared, hK0.aggregate, hK0.isolated, hK0.known, hK0.onto, hK0.copies,
    fun _ => hK0.covered fun p hp v hv => hD.covered p hp v (by rw [← hn p hp]; exact hv), hK0.member⟩
  have hDC := decomp_coarse hD hK
  refine ⟨s, R, C, N, F, agg', h1, h2, h3, h4, hK, hP, hDC, ?_⟩
  intro novlp ov hov
  -- every process
  have hloc : ∀ p, p < P → ∃ rows rs, parBuild (gr p) (fuel p) (pis p) (agg' p) (N p) novlp (ov p) = some (.ok rows) ∧
      galerkinDiag (A p) ((List.range (A p).n).map (agg' p)) (patternMat (N p) rows (junk p)) = .ok rs ∧
      VecIs rs (N p) (fun a => PtAP ((List.range (A p).n).map (agg' p)) (A p) a a) ∧
      ∀ (comm : List B → Res (List B)) (rs' : List B) (d : Nat → B), comm rs = .ok rs' → VecIs rs' (N p) d →
        ∃ C', calculate comm (A p) ((List.range (A p).n).map (agg' p)) (patternMat (N p) rows (junk p)) = .ok C' ∧
          C'.n = N p ∧ C'.m = N p ∧ C'.WF ∧
          (∀ a < N p, ∀ b, C'.Has a b ↔ (b = a ∨ ∃ i j, (A p).Has i j ∧ agg' p i = .id a ∧ agg' p j = .id b)) ∧
          ∀ a < N p, ∀ b, C'.entry a b = if b = a then d a else PtAP ((List.range (A p).n).map (agg' p)) (A p) a b := by
    intro p hp
    obtain ⟨s', hs', hL⟩ := buildCoarse_spec (gr p) (hwf p hp) (hS.ok p hp) (hS.bounded p hp) (pub p) (agg p) (hc p hp) (fuel p)
      (by rw [hn p hp]; exact hf p hp)
    have hss : s' = s p := by
      rw [h1 p hp] at hs'
      simpa using hs'.symm
    subst hss
    obtain ⟨n1, n2, n3⟩ := hnum p hp
    have hval : ∀ v, v < sz p → ∃ e ∈ pis p, e.loc = v ∧ (agg' p v = .iso ∨ ∃ c ∈ C p, agg' p v = .id c.loc ∧ F e.g = some c.g) := by
      intro v hv
      obtain ⟨e, he, hl⟩ := hD.covered p hp v hv
      refine ⟨e, he, hl, ?_⟩
      have := hP p hp e he
      rw [hl] at this
      cases hF : F e.g with
      | none => rw [hF] at this; exact Or.inl this
      | some i =>
        rw [hF] at this
        obtain ⟨c, hc', hg, hid⟩ := this
        exact Or.inr ⟨c, hc', hid, by rw [hg]⟩
    have hO : OwnFirst (gr p) (pis p) (agg' p) (s p).number (N p) := by
      refine ownFirst_of (hS.ok p hp) (hwf p hp) hL (hc p hp) n1 (hkeep p hp) ?_ ?_
      · intro v hv hF
        obtain ⟨e, he, hl, h⟩ := hval v (by rw [← hn p hp]; exact hv)
        rcases h with h | ⟨c, hc', hid, hFe⟩
        · exact Or.inl h
        · right
          refine ⟨c.loc, ?_, hK.shared.bounded p hp c hc', hid⟩
          by_contra hlt
          have hco := (n2 c hc').mpr (by omega)
          obtain ⟨c', hc'', hg', ha'⟩ := hK.known p hp e he c.g hFe
          rw [idx_eq_of_g (hK.shared.ok p hp) hc'' hc' hg'] at ha'
          have heo := ha'.mp hco
          rw [← hl] at hF
          exact owner_notForeign (hS.ok p hp) he heo hF
      · intro a ha haN
        obtain ⟨c, hc', hcl⟩ := n3 a ha haN
        obtain ⟨e, he, hFe, hae⟩ := hK.onto p hp c hc'
        refine ⟨e.loc, by rw [hn p hp]; exact hD.bounded p hp e he, ⟨e, he, rfl, ?_⟩, ?_⟩
        · intro heo
          have := (n2 c hc').mp (hae.mpr heo)
          omega
        · rw [← hcl]
          exact (pub_iff hK hP hp he hc').mpr hFe
    refine parGalerkin_local (A p) (hM.wf p hp) (gr p) (hgr p hp) (hS.ok p hp) hO (by rw [hM.rows p hp]; exact hov p hp) novlp
      (by rw [hM.rows p hp]; exact hf p hp) ?_ (junk p)
    intro v hv
    obtain ⟨e, he, hl, h⟩ := hval v (by rw [← hM.rows p hp]; exact hv)
    rcases h with h | ⟨c, hc', hid, -⟩
    · exact Or.inl h
    · exact Or.inr ⟨c.loc, hK.shared.bounded p hp c hc', hid⟩
  have hloc' : ∀ p, ∃ rows rs, p < P → parBuild (gr p) (fuel p) (pis p) (agg' p) (N p) novlp (ov p) = some (.ok rows) ∧
      galerkinDiag (A p) ((List.range (A p).n).map (agg' p)) (patternMat (N p) rows (junk p)) = .ok rs ∧
      VecIs rs (N p) (fun a => PtAP ((List.range (A p).n).map (agg' p)) (A p) a a) ∧
      ∀ (comm : List B → Res (List B)) (rs' : List B) (d : Nat → B), comm rs = .ok rs' → VecIs rs' (N p) d →
        ∃ C', calculate comm (A p) ((List.range (A p).n).map (agg' p)) (patternMat (N p) rows (junk p)) = .ok C' ∧
          C'.n = N p ∧ C'.m = N p ∧ C'.WF ∧
          (∀ a < N p, ∀ b, C'.Has a b ↔ (b = a ∨ ∃ i j, (A p).Has i j ∧ agg' p i = .id a ∧ agg' p j = .id b)) ∧
          ∀ a < N p, ∀ b, C'.entry a b = if b = a then d a else PtAP ((List.range (A p).n).map (agg' p)) (A p) a b := by
    intro p
    by_cases hp : p < P
    · obtain ⟨rows, rs, h⟩ := hloc p hp
      exact ⟨rows, rs, fun _ => h⟩
    · exact ⟨[], [], fun h => absurd h hp⟩
  choose rows rs hrs using hloc'
  -- the diagonals
  have hrow : ∀ p (hp : p < P), ∀ c ∈ C p, c.attr = .owner → _ := fun p hp c hc' ho =>
    ptap_row hD hK hP hM hp hc' (owner_rows hD hK hp hc' ho)
  have hcons : Par.Consistent P C (fun q => copyOwnerToAll C (fun p i => (rs p).getD i 0) (fun p i => (rs p).getD i 0) q (order'' q))
      (fun I => coarseMat 𝒢 F M I I) := by
    refine C36_consistent hDC _ _ ?_ order'' hord''
    intro p hp c hc' ho
    have hb := hDC.bounded p hp c hc'
    have h := (hrs p hp).2.2.1.2 c.loc hb
    rw [rd_ok] at h
    dsimp only
    rw [List.getD_eq_getElem?_getD, h, Option.getD_some]
    exact (hrow p hp c hc' ho).1 c hc'
  have hcalc : ∀ p, ∃ D, p < P → parCalculate C rs p (order'' p) (A p) ((List.range (A p).n).map (agg' p))
        (patternMat (N p) (rows p) (junk p)) = .ok D ∧ D.n = N p ∧ D.m = N p ∧ (D.WF ∧
      ∀ a < N p, ∀ b, D.Has a b ↔ (b = a ∨ ∃ i j, (A p).Has i j ∧ agg' p i = .id a ∧ agg' p j = .id b)) ∧
      ∀ a < N p, ∀ b, D.entry a b = if b = a then copyOwnerToAll C (fun p i => (rs p).getD i 0) (fun p i => (rs p).getD i 0) p (order'' p) a
        else PtAP ((List.range (A p).n).map (agg' p)) (A p) a b := by
    intro p
    by_cases hp : p < P
    · have hlen := (hrs p hp).2.2.1.1
      obtain ⟨D, e, d1, d2, d3, d4, d5⟩ := (hrs p hp).2.2.2 (fun r => exchangeDiag C (upd rs p r) p (order'' p))
        ((List.range (N p)).map (copyOwnerToAll C (fun p i => (rs p).getD i 0) (fun p i => (rs p).getD i 0) p (order'' p)))
        (copyOwnerToAll C (fun p i => (rs p).getD i 0) (fun p i => (rs p).getD i 0) p (order'' p)) (by
          have : upd rs p (rs p) = rs := by
            funext q
            by_cases hq : q = p
            · subst hq; simp
            · rw [upd_ne _ _ hq]
          unfold exchangeDiag
          rw [this, hlen]) ⟨by simp, by
          intro i hi
          rw [rd_ok, List.getElem?_map, List.getElem?_range hi]
          rfl⟩
      exact ⟨D, fun _ => ⟨e, d1, d2, ⟨d3, d4⟩, d5⟩⟩
    · exact ⟨⟨0, 0, fun _ => []⟩, fun h => absurd h hp⟩
  choose D hDm using hcalc
  have hdiag : ∀ p, p < P → ∀ c ∈ C p, (D p).entry c.loc c.loc = coarseMat 𝒢 F M c.g c.g := by
    intro p hp c hc'
    rw [(hDm p hp).2.2.2.2 c.loc (hDC.bounded p hp c hc'), if_pos rfl]
    exact hcons p hp c hc'
  have hdist : ∀ good : Attr → Prop, DistMat good P pis sz 𝒢 A M →
      (∀ p, p < P → ∀ c ∈ C p, good c.attr → ∀ g ∈ 𝒢, F g = some c.g → ∃ e ∈ pis p, e.g = g ∧ good e.attr) →
      DistMat good P C N (coarseSet 𝒢 F) D (coarseMat 𝒢 F M) := by
    intro good hMg hrows
    refine ⟨fun p hp => (hDm p hp).2.2.2.1.1, fun p hp => (hDm p hp).2.1, fun p hp => (hDm p hp).2.2.1, ?_, ?_⟩
    · intro p hp c hc' hg d hd
      by_cases hcd : d.loc = c.loc
      · rw [idx_eq_of_loc (hDC.ok p hp) hd hc' hcd]
        exact hdiag p hp c hc'
      · rw [(hDm p hp).2.2.2.2 c.loc (hDC.bounded p hp c hc'), if_neg hcd]
        exact (ptap_row hD hK hP hMg hp hc' (hrows p hp c hc' hg)).1 d hd
    · intro p hp c hc' hg J _ hno
      exact (ptap_row hD hK hP hMg hp hc' (hrows p hp c hc' hg)).2 J hno
  refine ⟨rows, rs, D, fun p hp => (hrs p hp).1, fun p hp => (hrs p hp).2.1, fun p hp => (hDm p hp).1,
    fun p hp => (hDm p hp).2.2.2.1.2, hdist _ hM fun p hp c hc' ho => owner_rows hD hK hp hc' ho, hdiag, ?_⟩
  intro S hSp hOM
  have := hdist (· ≠ .copy) ⟨hOM.wf, hOM.rows, hOM.cols, hOM.entry, hOM.closed⟩ fun p hp c hc' ho =>
    overlap_rows hD hK hOM.wf hOM.rows hgr hc hSp hp hc' ho
  exact ⟨this.wf, this.rows, this.cols, this.entry, this.closed⟩

/-! ## A concrete case -/

/-- The path 0-1-2-3 on two processes: each owns one half and has the next vertex as overlap and the one behind as copy. -/
def pgPis : Nat → PIS
  | 0 => [⟨0, 0, .owner⟩, ⟨1, 1, .owner⟩, ⟨2, 2, .overlap⟩, ⟨3, 3, .copy⟩]
  | _ => [⟨0, 3, .copy⟩, ⟨1, 2, .overlap⟩, ⟨2, 0, .owner⟩, ⟨3, 1, .owner⟩]

/-- The local matrices; the row of the copy holds a Dirichlet condition. -/
def pgMat : Nat → SpMat ℤ
  | 0 => ⟨4, 4, fun i => match i with
    | 0 => [(0, 2), (1, -1)] | 1 => [(0, -1), (1, 2), (2, -1)] | 2 => [(1, -1), (2, 2), (3, -1)] | 3 => [(3, 1)] | _ => []⟩
  | _ => ⟨4, 4, fun i => match i with
    | 0 => [(0, 2), (1, -1), (2, -1)] | 1 => [(0, -1), (1, 2)] | 2 => [(0, -1), (2, 2), (3, -1)] | 3 => [(3, 1)] | _ => []⟩

/-- Process 0 has made the aggregate {0,1}, process 1 the aggregates {2} and {3}. -/
def pgAgg : Nat → Nat → Agg
  | 0 => fun v => if v < 2 then .id 7 else .unagg
  | _ => fun v => if v < 2 then .id v else .unagg

def pgGraph (p : Nat) : Graph := match matrixGraph (pgMat p) with
  | .ok g => g
  | _ => ⟨0, fun _ => []⟩

theorem pg_decomp : Decomp 2 pgPis (fun _ => 4) {0, 1, 2, 3} where
  ok p hp := by interval_cases p <;> exact ⟨by decide, by decide⟩
  bounded p hp := by interval_cases p <;> decide
  covered p hp := by interval_cases p <;> decide
  inG p hp := by interval_cases p <;> decide
  owned g hg := by
    have h : ∀ g ∈ ({0, 1, 2, 3} : Finset Nat), ∃ p, p < 2 ∧ ∃ e ∈ pgPis p, e.g = g ∧ e.attr = .owner := by decide
    exact h g hg
  unique p q hp hq := by interval_cases p <;> interval_cases q <;> decide

theorem pg_overlap : OverlapMat 2 pgPis (fun _ => 4) {0, 1, 2, 3} pgMat demoM where
  wf p hp := by
    interval_cases p <;>
    · intro i hi
      have hi : i < 4 := hi
      interval_cases i <;> simp [pgMat, Row.Asc]
  rows p hp := by interval_cases p <;> rfl
  cols p hp := by interval_cases p <;> rfl
  entry p hp := by interval_cases p <;> decide
  closed p hp := by interval_cases p <;> decide

theorem pg_dist : DistMat (· = .owner) 2 pgPis (fun _ => 4) {0, 1, 2, 3} pgMat demoM :=
  ⟨pg_overlap.wf, pg_overlap.rows, pg_overlap.cols, fun p hp e he ho => pg_overlap.entry p hp e he (by rw [ho]; decide),
    fun p hp e he ho => pg_overlap.closed p hp e he (by rw [ho]; decide)⟩

theorem pg_pat : OverlapPat 2 pgPis pgMat (fun g h => g < 4 ∧ h < 4 ∧ (g = h ∨ g + 1 = h ∨ h + 1 = g)) where
  symm g h hs := by omega
  stored p hp := by
    have h : ∀ p < 2, ∀ e ∈ pgPis p, e.attr = .owner → ∀ f ∈ pgPis p, f.loc ∈ ((pgMat p).row e.loc).map Prod.fst →
        e.g < 4 ∧ f.g < 4 ∧ (e.g = f.g ∨ e.g + 1 = f.g ∨ f.g + 1 = e.g) := by decide
    intro e he ho f hf hh
    obtain ⟨-, b, hb⟩ := hh
    exact h p hp e he ho f hf (List.mem_map.mpr ⟨_, hb, rfl⟩)
  known p hp := by
    have h : ∀ p < 2, ∀ e ∈ pgPis p, e.attr ≠ .copy → ∀ h < 4, (e.g = h ∨ e.g + 1 = h ∨ h + 1 = e.g) → ∃ f ∈ pgPis p, f.g = h := by
      decide
    rintro e he ha k ⟨-, hk, hs⟩
    exact h p hp e he ha k hk hs

theorem pg_graph : ∀ p, p < 2 → matrixGraph (pgMat p) = .ok (pgGraph p) := by
  intro p hp
  interval_cases p <;> rfl

theorem pg_connected : ∀ p, p < 2 → OwnConnected (pgGraph p) (pgPis p) (pgAgg p) := by
  intro p hp f v hf hv hF e
  have hn : (pgGraph p).n = 4 := by interval_cases p <;> rfl
  rw [hn] at hf hv
  interval_cases p <;> interval_cases f <;> interval_cases v <;>
    first
    | (exfalso; revert hF e; decide)
    | exact .refl
    | exact .single ⟨by decide +kernel, by decide +kernel⟩

/-- Non-vacuity of `C73_galerkin`: all its hypotheses hold of this matrix, including those about the overlap. -/
example : ∃ (C : Nat → PIS) (N : Nat → Nat) (F : Nat → Option Nat) (D : Nat → SpMat ℤ),
    Decomp 2 C N (coarseSet {0, 1, 2, 3} F) ∧ OverlapMat 2 C N (coarseSet {0, 1, 2, 3} F) D (coarseMat {0, 1, 2, 3} F demoM) := by
  obtain ⟨s, R, C, N, F, agg', -, -, -, -, hK, -, hDC, h⟩ := C73_galerkin pg_decomp pg_dist pg_graph pgAgg pg_connected (fun _ _ => true)
    (fun _ => 5) (fun _ _ => by decide) (fun _ => 99) (fun q => if q = 0 then [1] else [0]) (fun q => if q = 0 then [1] else [0])
    (fun q => if q = 0 then [1] else [0]) (fun q hq => by interval_cases q <;> decide) (fun q hq => by interval_cases q <;> decide)
    (fun q hq => by interval_cases q <;> decide)
  have ht : ∀ a b, aggLe a b ∨ aggLe b a := by
    intro a b
    cases a <;> cases b <;> simp [aggLe, Nat.le_total]
  have htr : ∀ a b c, aggLe a b → aggLe b c → aggLe a c := by
    intro a b c
    cases a <;> cases b <;> cases c <;> simp [aggLe]
    exact Nat.le_trans
  haveI : ∀ m : Nat → Agg, Std.Total fun u v => aggLe (m u) (m v) := fun m => ⟨fun u v => ht _ _⟩
  haveI : ∀ m : Nat → Agg, IsTrans Nat fun u v => aggLe (m u) (m v) := fun m => ⟨fun u v w => htr _ _ _⟩
  obtain ⟨rows, rs, D, -, -, -, -, -, -, h'⟩ := h false (fun p => (overlapVerts (pgPis p) 4).insertionSort fun u v => aggLe (agg' p u) (agg' p v))
    (fun p _ => ⟨List.perm_insertionSort _ _, List.pairwise_insertionSort _ _⟩)
  exact ⟨C, N, F, D, hDC, h' _ pg_pat pg_overlap⟩

/-- The computation on process 0, after publishing: it has three aggregates, {0,1} of its own and {2}, {3} of process 1. The last
diagonal entry comes from the owner. -/
example :
    let agg : Nat → Agg := fun v => match v with | 0 => .id 0 | 1 => .id 0 | 2 => .id 1 | _ => .id 2
    let C : Nat → PIS := fun p => if p = 0 then [⟨1, 0, .owner⟩, ⟨2, 1, .overlap⟩, ⟨3, 2, .copy⟩] else
      [⟨1, 2, .copy⟩, ⟨2, 0, .owner⟩, ⟨3, 1, .owner⟩]
    (∀ novlp, parBuild (pgGraph 0) 5 (pgPis 0) agg 3 novlp [2, 3] = some (.ok [[0, 1], [0, 1, 2], [2]])) ∧
    galerkinDiag (pgMat 0) [.id 0, .id 0, .id 1, .id 2] (patternMat 3 [[0, 1], [0, 1, 2], [2]] 99) = .ok [2, 2, 1] ∧
    (parCalculate C (fun p => if p = 0 then [2, 2, 1] else [2, 2, 5]) 0 [1] (pgMat 0) [.id 0, .id 0, .id 1, .id 2]
      (patternMat 3 [[0, 1], [0, 1, 2], [2]] 99) >>= fun D => Res.ok (D.row 0, D.row 1, D.row 2)) =
      .ok ([(0, 2), (1, -1)], [(0, -1), (1, 2), (2, -1)], [(2, 2)]) := by
  decide +kernel

end Amg
end Istl
