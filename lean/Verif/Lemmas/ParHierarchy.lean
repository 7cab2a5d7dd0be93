import Verif.Spec.ParHierarchy
import Verif.Props.C73

/-! # Lemmas on the matrix hierarchy on several processes: one level -/

namespace Istl
namespace Amg
open Par Finset
variable {B : Type}

theorem foldlM_congr_mem {α β : Type} {f g : β → α → Res β} : ∀ (l : List α) (b : β), (∀ a ∈ l, ∀ b, f b a = g b a) → l.foldlM f b = l.foldlM g b
  | [], _, _ => rfl
  | a :: l, b, h => by
    rw [List.foldlM_cons, List.foldlM_cons, h a (by simp)]
    congr 1
    funext b'
    exact foldlM_congr_mem l b' fun a ha => h a (by simp [ha])

theorem publishOwner_congr {pis C C' : Nat → PIS} {agg agg' : Nat → Nat → Agg} {q : Nat} {order : List Nat}
    (h : ∀ p, p = q ∨ p ∈ order → C p = C' p ∧ agg p = agg' p) : publishOwner pis C agg q order = publishOwner pis C' agg' q order := by
  unfold publishOwner forwardAgg
  rw [(h q (.inl rfl)).2, (h q (.inl rfl)).1]
  refine foldlM_congr_mem _ _ fun p hp d => ?_
  rw [(h p (.inr hp)).1, (h p (.inr hp)).2]

theorem exchangeDiag_congr [Zero B] {C C' : Nat → PIS} {rs rs' : Nat → List B} {q : Nat} {order : List Nat}
    (h : ∀ p, p = q ∨ p ∈ order → C p = C' p ∧ rs p = rs' p) : exchangeDiag C rs q order = exchangeDiag C' rs' q order := by
  unfold exchangeDiag copyOwnerToAll forward
  simp only [(h q (.inl rfl)).2, (h q (.inl rfl)).1]
  have : ∀ (l : List Nat) (d : Nat → B), (∀ p ∈ l, p ∈ order) →
      l.foldl (fun d p => scatter (fun _ v => v) d ((sendList isOwner isAll (C p) (C' q)).map fun i => (rs p).getD i 0)
        (recvList isOwner isAll (C' q) (C p))) d =
      l.foldl (fun d p => scatter (fun _ v => v) d ((sendList isOwner isAll (C' p) (C' q)).map fun i => (rs' p).getD i 0)
        (recvList isOwner isAll (C' q) (C' p))) d := by
    intro l
    induction l with
    | nil => intros; rfl
    | cons a l ih =>
      intro d hl
      rw [List.foldl_cons, List.foldl_cons, (h a (.inr (hl a (by simp)))).1, (h a (.inr (hl a (by simp)))).2]
      exact ih _ fun p hp => hl p (by simp [hp])
  rw [this order _ fun _ h => h]

theorem parCalculate_congr [Add B] [Zero B] {C C' : Nat → PIS} {rs rs' : Nat → List B} {q : Nat} {order : List Nat} {A : SpMat B}
    {agg : List Agg} {M : SpMat B} (h : ∀ p, p = q ∨ p ∈ order → C p = C' p ∧ rs p = rs' p) :
    parCalculate C rs q order A agg M = parCalculate C' rs' q order A agg M := by
  unfold parCalculate
  congr 1
  funext r
  refine exchangeDiag_congr fun p hp => ⟨(h p hp).1, ?_⟩
  by_cases e : p = q
  · subst e; rw [upd_same, upd_same]
  · rw [upd_ne _ _ e, upd_ne _ _ e, (h p hp).2]

theorem arrive_lt {P : Nat} {order : Nat → Nat → List Nat} (h : AllArrive P order) {l q p : Nat} (hq : q < P) (hp : p ∈ order l q) :
    p < P ∧ p ≠ q := by
  have := (h l q hq).mem_iff.mp hp
  simpa using this

theorem decomp_congr {P : Nat} {C C' : Nat → PIS} {N N' : Nat → Nat} {G : Finset Nat} (h : ∀ p, p < P → C p = C' p ∧ N p = N' p)
    (hD : Decomp P C N G) : Decomp P C' N' G where
  ok p hp := by rw [← (h p hp).1]; exact hD.ok p hp
  bounded p hp := by rw [← (h p hp).1, ← (h p hp).2]; exact hD.bounded p hp
  covered p hp := by rw [← (h p hp).1, ← (h p hp).2]; exact hD.covered p hp
  inG p hp := by rw [← (h p hp).1]; exact hD.inG p hp
  owned g hg := by
    obtain ⟨p, hp, e, he, r⟩ := hD.owned g hg
    exact ⟨p, hp, e, by rw [← (h p hp).1]; exact he, r⟩
  unique p q hp hq := by rw [← (h p hp).1, ← (h q hq).1]; exact hD.unique p q hp hq

theorem overlapMat_congr [AddCommGroup B] {P : Nat} {C C' : Nat → PIS} {N N' : Nat → Nat} {G : Finset Nat} {D D' : Nat → SpMat B} {M : Nat → Nat → B}
    (h : ∀ p, p < P → C p = C' p ∧ N p = N' p) (hd : ∀ p, p < P → D p = D' p) (hM : OverlapMat P C N G D M) : OverlapMat P C' N' G D' M where
  wf p hp := by rw [← hd p hp]; exact hM.wf p hp
  rows p hp := by rw [← hd p hp, ← (h p hp).2]; exact hM.rows p hp
  cols p hp := by rw [← hd p hp, ← (h p hp).2]; exact hM.cols p hp
  entry p hp := by rw [← hd p hp, ← (h p hp).1]; exact hM.entry p hp
  closed p hp := by rw [← (h p hp).1]; exact hM.closed p hp

theorem published_congr {P : Nat} {pis C C' : Nat → PIS} {F : Nat → Option Nat} {m m' : Nat → Nat → Agg} (h : ∀ p, p < P → C p = C' p ∧ m p = m' p)
    (hP : Published P pis C F m) : Published P pis C' F m' := by
  intro p hp e he
  have := hP p hp e he
  rw [(h p hp).1, (h p hp).2] at this
  exact this

theorem coarsening_congr {P : Nat} {pis C C' : Nat → PIS} {n N N' : Nat → Nat} {agg : Nat → Nat → Agg} {F : Nat → Option Nat}
    (h : ∀ p, p < P → C p = C' p ∧ N p = N' p) (hK : Coarsening P pis n agg C N F) : Coarsening P pis n agg C' N' F where
  shared := {
    ok := fun p hp => by rw [← (h p hp).1]; exact hK.shared.ok p hp
    bounded := fun p hp => by rw [← (h p hp).1, ← (h p hp).2]; exact hK.shared.bounded p hp
    owned := fun p hp e he => by
      rw [← (h p hp).1] at he
      obtain ⟨q, hq, f, hf, r⟩ := hK.shared.owned p hp e he
      exact ⟨q, hq, f, by rw [← (h q hq).1]; exact hf, r⟩
    unique := fun p q hp hq => by rw [← (h p hp).1, ← (h q hq).1]; exact hK.shared.unique p q hp hq }
  aggregate := hK.aggregate
  isolated := hK.isolated
  known p hp := by rw [← (h p hp).1]; exact hK.known p hp
  onto p hp := by rw [← (h p hp).1]; exact hK.onto p hp
  copies p hp := by rw [← (h p hp).1]; exact hK.copies p hp
  covered hc p hp := by rw [← (h p hp).1, ← (h p hp).2]; exact hK.covered hc p hp
  member p hp := by rw [← (h p hp).1]; exact hK.member p hp

/-- The coupling graph of the coarse level. -/
def coarseRel (G : Finset Nat) (F : Nat → Option Nat) (S : Nat → Nat → Prop) (I J : Nat) : Prop :=
  I = J ∨ ∃ g ∈ G, ∃ h ∈ G, F g = some I ∧ F h = some J ∧ S g h

theorem coarse_pattern [AddCommGroup B] {P : Nat} {pis : Nat → PIS} {sz : Nat → Nat} {G : Finset Nat} (hD : Decomp P pis sz G) {agg agg' : Nat → Nat → Agg}
    {C : Nat → PIS} {N : Nat → Nat} {F : Nat → Option Nat} (hK : Coarsening P pis sz agg C N F) (hP : Published P pis C F agg') {A D : Nat → SpMat B}
    (hwf : ∀ p, p < P → (A p).WF) (hn : ∀ p, p < P → (A p).n = sz p) (hm : ∀ p, p < P → (A p).m = sz p) {gr : Nat → Graph}
    (hgr : ∀ p, p < P → matrixGraph (A p) = .ok (gr p))
    (hconn : ∀ p, p < P → OwnConnected (gr p) (pis p) (agg p)) {S : Nat → Nat → Prop} (hS : OverlapPat P pis A S)
    (hhas : ∀ p, p < P → ∀ a, a < N p → ∀ b, (D p).Has a b ↔ (b = a ∨ ∃ i j, (A p).Has i j ∧ agg' p i = .id a ∧ agg' p j = .id b)) :
    OverlapPat P C D (coarseRel G F S) where
  symm I J h := by
    rcases h with rfl | ⟨g, hg, h, hh, h1, h2, h3⟩
    · exact .inl rfl
    · exact .inr ⟨h, hh, g, hg, h2, h1, hS.symm _ _ h3⟩
  stored p hp c hc ho d hd hH := by
    rcases (hhas p hp c.loc (hK.shared.bounded p hp c hc) d.loc).mp hH with h | ⟨i, j, hij, hi, hj⟩
    · left
      rw [idx_eq_of_loc (hK.shared.ok p hp) hd hc h]
    · right
      have hb := hwf p hp
      have hi' : i < sz p := by rw [← hn p hp]; exact (hij).1
      have hj' : j < sz p := by
        obtain ⟨x, hx⟩ := hij.2
        rw [← hm p hp]; exact (hb i hij.1).2 _ hx
      obtain ⟨e, he, rfl⟩ := hD.covered p hp i hi'
      obtain ⟨f, hf, rfl⟩ := hD.covered p hp j hj'
      have hFe := (pub_iff hK hP hp he hc).mp hi
      have hFf := (pub_iff hK hP hp hf hd).mp hj
      obtain ⟨c', hc', hg', ha'⟩ := hK.known p hp e he c.g hFe
      rw [idx_eq_of_g (hK.shared.ok p hp) hc' hc hg'] at ha'
      exact ⟨e.g, hD.inG p hp e he, f.g, hD.inG p hp f hf, hFe, hFf, hS.stored p hp e he (ha'.mp ho) f hf hij⟩
  known p hp c hc hcc J h := by
    rcases h with rfl | ⟨g, hg, h, hh, h1, h2, h3⟩
    · exact ⟨c, hc, rfl⟩
    · obtain ⟨e, he, rfl, ha⟩ := overlap_rows hD hK hwf hn hgr hconn hS hp hc hcc g hg h1
      obtain ⟨f, hf, rfl⟩ := hS.known p hp e he ha h h3
      obtain ⟨d, hd, hdg, -⟩ := hK.known p hp f hf J h2
      exact ⟨d, hd, hdg⟩

/-- One pass of the loop: every run gives the Galerkin product of the matrix held, for a map all processes agree on. -/
theorem step_spec [AddCommGroup B] {c : HierEnv B} (ha : AggrOk c.aggr) (o1 : AllArrive c.P c.order) (o2 : AllArrive c.P c.order')
    (o3 : AllArrive c.P c.order'') {l : Nat} {A A' : DistLevel B} {G : Finset Nat} {M : Nat → Nat → B} (hA : Holding c.P A G M)
    {m' : Nat → Nat → Agg} (hr : CoarsenRun c l A A' m') :
    ∃ F, Holding c.P A' (coarseSet G F) (coarseMat G F M) ∧ Published c.P A.pis A'.pis F m' ∧
      Coarsening c.P A.pis A.sz (fun p => (c.aggr (l == 0) p (A.pis p) (A.mat p)).1) A'.pis A'.sz F := by
  obtain ⟨gr, s, R, ov, rows, rs, r1, r2, r3, r4, r5, r6, r7, r8, r9⟩ := hr
  obtain ⟨hD, hO, ⟨S, hS⟩, hsy⟩ := hA
  have hM : DistMat (· = .owner) c.P A.pis A.sz G A.mat M := ⟨hO.wf, hO.rows, hO.cols,
    fun p hp e he hg => hO.entry p hp e he (by rw [hg]; decide), fun p hp e he hg => hO.closed p hp e he (by rw [hg]; decide)⟩
  have hconn : ∀ p, p < c.P → OwnConnected (gr p) (A.pis p) (c.aggr (l == 0) p (A.pis p) (A.mat p)).1 :=
    fun p hp => (ha _ p _ _ _ (hO.wf p hp) (r1 p hp) (hD.ok p hp) (fun e he => by rw [hO.rows p hp]; exact hD.bounded p hp e he)
      (fun v hv => hD.covered p hp v (by rw [← hO.rows p hp]; exact hv)) (hsy p hp)).1
  obtain ⟨s2, R2, C2, N2, F, m2, h1, h2, h3, h4, hK, hP, hDC, h⟩ := C73_galerkin hD hM r1 (fun p => (c.aggr (l == 0) p (A.pis p) (A.mat p)).1) hconn
    (c.pub l) (fun p => A.sz p + 1) (fun p _ => le_refl _) (c.junk l) (c.order l) (c.order' l) (c.order'' l) (o1 l) (o2 l) (o3 l)
  have es : ∀ p, p < c.P → s2 p = s p := fun p hp => by
    have := h1 p hp
    rw [r2 p hp] at this
    simpa using this.symm
  have eR : ∀ p q, p < c.P → q < c.P → p ≠ q → R2 p q = R p q := fun p q hp hq hpq => by
    have := h2 p q hp hq hpq
    rw [es p hp, r3 p q hp hq hpq] at this
    simpa using this.symm
  have eC : ∀ q, q < c.P → C2 q = A'.pis q ∧ N2 q = A'.sz q := fun q hq => by
    have := h3 q hq
    have e : (c.order l q).map (fun p => R2 p q) = (c.order l q).map fun p => R p q :=
      List.map_congr_left fun p hp => eR p q (arrive_lt o1 hq hp).1 hq (arrive_lt o1 hq hp).2
    rw [es q hq, e, r4 q hq] at this
    simpa using this.symm
  have em : ∀ q, q < c.P → m2 q = m' q := fun q hq => by
    have := h4 q hq
    rw [publishOwner_congr (C' := A'.pis) (agg' := fun p => (s p).agg) fun p hp => ?_, r5 q hq] at this
    · simpa using this.symm
    · have hp' : p < c.P := by
        rcases hp with rfl | hp
        · exact hq
        · exact (arrive_lt o2 hq hp).1
      exact ⟨(eC p hp').1, by rw [es p hp']⟩
  obtain ⟨rows2, rs2, D2, k1, k2, k3, k4, -, -, k5⟩ := h c.novlp ov fun p hp => by rw [em p hp]; exact r6 p hp
  have erow : ∀ p, p < c.P → rows2 p = rows p := fun p hp => by
    have := k1 p hp
    rw [em p hp, (eC p hp).2, r7 p hp] at this
    simpa using this.symm
  have ers : ∀ p, p < c.P → rs2 p = rs p := fun p hp => by
    have := k2 p hp
    rw [em p hp, (eC p hp).2, erow p hp, r8 p hp] at this
    simpa using this.symm
  have eD : ∀ p, p < c.P → D2 p = A'.mat p := fun q hq => by
    have := k3 q hq
    rw [em q hq, (eC q hq).2, erow q hq, parCalculate_congr (C' := A'.pis) (rs' := rs) fun p hp => ?_, r9 q hq] at this
    · simpa using this.symm
    · have hp' : p < c.P := by
        rcases hp with rfl | hp
        · exact hq
        · exact (arrive_lt o3 hq hp).1
      exact ⟨(eC p hp').1, ers p hp'⟩
  have hK' := coarsening_congr eC hK
  have hP' := published_congr (fun p hp => ⟨(eC p hp).1, em p hp⟩) hP
  have hhas : ∀ p, p < c.P → ∀ a, a < A'.sz p → ∀ b,
      (A'.mat p).Has a b ↔ (b = a ∨ ∃ i j, (A.mat p).Has i j ∧ m' p i = .id a ∧ m' p j = .id b) := by
    intro p hp a hN b
    rw [← eD p hp, k4 p hp a (by rw [(eC p hp).2]; exact hN) b, em p hp]
  refine ⟨F, ⟨decomp_congr eC hDC, overlapMat_congr eC eD (k5 S hS hO), ⟨coarseRel G F S, ?_⟩, ?_⟩, hP', hK'⟩
  · exact coarse_pattern hD hK' hP' hO.wf hO.rows hO.cols r1 hconn hS hhas
  · intro p hp c1 hc1 ho1 c2 hc2 ho2 h
    rw [hhas p hp _ (hK'.shared.bounded p hp c1 hc1)] at h
    rw [hhas p hp _ (hK'.shared.bounded p hp c2 hc2)]
    rcases h with h | ⟨i, j, hij, hi, hj⟩
    · exact .inl h.symm
    · have hi' : i < A.sz p := by rw [← hO.rows p hp]; exact hij.1
      have hj' : j < A.sz p := by
        obtain ⟨x, hx⟩ := hij.2
        rw [← hO.cols p hp]; exact (hO.wf p hp i hij.1).2 _ hx
      obtain ⟨e, he, rfl⟩ := hD.covered p hp i hi'
      obtain ⟨f, hf, rfl⟩ := hD.covered p hp j hj'
      have hown : ∀ x ∈ A.pis p, ∀ d ∈ A'.pis p, d.attr = .owner → m' p x.loc = .id d.loc → x.attr = .owner := by
        intro x hx d hd ho hm
        have hF := (pub_iff hK' hP' hp hx hd).mp hm
        obtain ⟨d', hd', hg', ha'⟩ := hK'.known p hp x hx d.g hF
        rw [idx_eq_of_g (hK'.shared.ok p hp) hd' hd hg'] at ha'
        exact ha'.mp ho
      exact .inr ⟨f.loc, e.loc, hsy p hp e he (hown e he c1 hc1 ho1 hi) f hf (hown f hf c2 hc2 ho2 hj) hij, hj, hi⟩

theorem sorted_exists (A : PIS) (n : Nat) (m : Nat → Agg) : ∃ ov, Sorted A n m ov := by
  have ht : ∀ a b, aggLe a b ∨ aggLe b a := by
    intro a b
    cases a <;> cases b <;> simp [aggLe, Nat.le_total]
  have htr : ∀ a b c, aggLe a b → aggLe b c → aggLe a c := by
    intro a b c
    cases a <;> cases b <;> cases c <;> simp [aggLe]
    exact Nat.le_trans
  haveI : Std.Total fun u v => aggLe (m u) (m v) := ⟨fun u v => ht _ _⟩
  haveI : IsTrans Nat fun u v => aggLe (m u) (m v) := ⟨fun u v w => htr _ _ _⟩
  classical
  exact ⟨(overlapVerts A n).insertionSort fun u v => aggLe (m u) (m v), List.perm_insertionSort _ _, List.pairwise_insertionSort _ _⟩

/-- One pass of the loop succeeds on all processes. -/
theorem step_exists [AddCommGroup B] {c : HierEnv B} (ha : AggrOk c.aggr) (o1 : AllArrive c.P c.order) (o2 : AllArrive c.P c.order')
    (o3 : AllArrive c.P c.order'') (l : Nat) {A : DistLevel B} {G : Finset Nat} {M : Nat → Nat → B} (hA : Holding c.P A G M) :
    ∃ A' m', CoarsenRun c l A A' m' := by
  obtain ⟨hD, hO, ⟨S, hS⟩, hsy⟩ := hA
  have hM : DistMat (· = .owner) c.P A.pis A.sz G A.mat M := ⟨hO.wf, hO.rows, hO.cols,
    fun p hp e he hg => hO.entry p hp e he (by rw [hg]; decide), fun p hp e he hg => hO.closed p hp e he (by rw [hg]; decide)⟩
  have hgr : ∀ p, ∃ g, p < c.P → matrixGraph (A.mat p) = .ok g := fun p => by
    by_cases hp : p < c.P
    · refine ⟨⟨(A.mat p).n, fun v => (matrixEdges (A.mat p) v).map Prod.fst⟩, fun _ => ?_⟩
      unfold matrixGraph
      rw [if_neg (by rw [hO.rows p hp, hO.cols p hp]; simp)]
    · exact ⟨⟨0, fun _ => []⟩, fun h => absurd h hp⟩
  choose gr r1 using hgr
  have hconn : ∀ p, p < c.P → OwnConnected (gr p) (A.pis p) (c.aggr (l == 0) p (A.pis p) (A.mat p)).1 :=
    fun p hp => (ha _ p _ _ _ (hO.wf p hp) (r1 p hp) (hD.ok p hp) (fun e he => by rw [hO.rows p hp]; exact hD.bounded p hp e he)
      (fun v hv => hD.covered p hp v (by rw [← hO.rows p hp]; exact hv)) (hsy p hp)).1
  obtain ⟨s2, R2, C2, N2, F, m2, h1, h2, h3, h4, hK, hP, hDC, h⟩ := C73_galerkin hD hM r1 (fun p => (c.aggr (l == 0) p (A.pis p) (A.mat p)).1) hconn
    (c.pub l) (fun p => A.sz p + 1) (fun p _ => le_refl _) (c.junk l) (c.order l) (c.order' l) (c.order'' l) (o1 l) (o2 l) (o3 l)
  choose ov hov using fun p => sorted_exists (A.pis p) (A.sz p) (m2 p)
  obtain ⟨rows2, rs2, D2, k1, k2, k3, -⟩ := h c.novlp ov fun p _ => hov p
  exact ⟨⟨C2, N2, D2⟩, m2, gr, s2, R2, ov, rows2, rs2, r1, h1, h2, h3, h4, fun p _ => hov p, k1, k2, k3⟩

/-- The number of aggregates over all processes is the number of coarse indices. -/
theorem noAggregates_card [AddCommGroup B] {c : HierEnv B} (ha : AggrOk c.aggr) {l : Nat} {A A' : DistLevel B} {G : Finset Nat} {M : Nat → Nat → B}
    (hA : Holding c.P A G M) {F : Nat → Option Nat}
    (hK : Coarsening c.P A.pis A.sz (fun p => (c.aggr (l == 0) p (A.pis p) (A.mat p)).1) A'.pis A'.sz F) :
    c.noAggregates l A = (coarseSet G F).card := by
  obtain ⟨hD, hO, ⟨S, hS⟩, hsy⟩ := hA
  have hag : ∀ p, p < c.P → _ := fun p hp => ha (l == 0) p (A.pis p) (A.mat p) ⟨(A.mat p).n, fun v => (matrixEdges (A.mat p) v).map Prod.fst⟩
    (hO.wf p hp) (by unfold matrixGraph; rw [if_neg (by rw [hO.rows p hp, hO.cols p hp]; simp)]) (hD.ok p hp)
    (fun e he => by rw [hO.rows p hp]; exact hD.bounded p hp e he) (fun v hv => hD.covered p hp v (by rw [← hO.rows p hp]; exact hv)) (hsy p hp)
  -- the coarse indices of the vertices of one process
  let T : Nat → Finset Nat := fun p => (((A.pis p).filter fun e => e.attr = .owner).filterMap fun e => F e.g).toFinset
  have hT : ∀ p I, I ∈ T p ↔ ∃ e ∈ A.pis p, e.attr = .owner ∧ F e.g = some I := by
    intro p I
    simp only [T, List.mem_toFinset, List.mem_filterMap, List.mem_filter, decide_eq_true_eq, and_assoc]
  have hU : ∀ p a, a ∈ ownAggs (A.pis p) (c.aggr (l == 0) p (A.pis p) (A.mat p)).1 ↔
      ∃ e ∈ A.pis p, e.attr = .owner ∧ (c.aggr (l == 0) p (A.pis p) (A.mat p)).1 e.loc = .id a := by
    intro p a
    simp only [ownAggs, List.mem_toFinset, List.mem_filterMap, List.mem_filter, decide_eq_true_eq, and_assoc]
    refine exists_congr fun e => and_congr_right fun _ => and_congr_right fun _ => ?_
    cases (c.aggr (l == 0) p (A.pis p) (A.mat p)).1 e.loc <;> simp
  have hcard : ∀ p, p < c.P → (c.aggr (l == 0) p (A.pis p) (A.mat p)).2 = (T p).card := by
    intro p hp
    rw [(hag p hp).2.2]
    have hex : ∀ a ∈ ownAggs (A.pis p) (c.aggr (l == 0) p (A.pis p) (A.mat p)).1, ∃ I ∈ T p, ∃ e ∈ A.pis p, e.attr = .owner ∧
        (c.aggr (l == 0) p (A.pis p) (A.mat p)).1 e.loc = .id a ∧ F e.g = some I := by
      intro a hu
      obtain ⟨e, he, ho, hi⟩ := (hU p a).mp hu
      cases hF : F e.g with
      | none => rw [(hK.isolated p hp e he ho).mp hF] at hi; cases hi
      | some I => exact ⟨I, (hT p I).mpr ⟨e, he, ho, hF⟩, e, he, ho, hi, hF⟩
    refine Finset.card_bij (fun a hu => Classical.choose (hex a hu)) ?_ ?_ ?_
    · intro a hu; exact (Classical.choose_spec (hex a hu)).1
    · intro a hu b hv hab
      obtain ⟨-, e, he, ho, hi, hF⟩ := Classical.choose_spec (hex a hu)
      obtain ⟨-, f, hf, ho', hi', hF'⟩ := Classical.choose_spec (hex b hv)
      rw [hab, ← hF'] at hF
      have := (hK.aggregate p hp e he f hf ho ho' (by show (c.aggr (l == 0) p (A.pis p) (A.mat p)).1 e.loc ≠ _; rw [hi]; simp)).mp hF
      rw [hi, hi'] at this
      simpa using this
    · intro I hI
      obtain ⟨e, he, ho, hF⟩ := (hT p I).mp hI
      cases hm : (c.aggr (l == 0) p (A.pis p) (A.mat p)).1 e.loc with
      | iso => rw [(hK.isolated p hp e he ho).mpr hm] at hF; cases hF
      | unagg => exact absurd hm ((hag p hp).2.1 e he ho)
      | id a =>
        have hu := (hU p a).mpr ⟨e, he, ho, hm⟩
        refine ⟨a, hu, ?_⟩
        obtain ⟨-, f, hf, ho', hi', hF'⟩ := Classical.choose_spec (hex a hu)
        have := (hK.aggregate p hp e he f hf ho ho' (by show (c.aggr (l == 0) p (A.pis p) (A.mat p)).1 e.loc ≠ _; rw [hm]; simp)).mpr
          (by show (c.aggr (l == 0) p (A.pis p) (A.mat p)).1 e.loc = (c.aggr (l == 0) p (A.pis p) (A.mat p)).1 f.loc; rw [hm, hi'])
        rw [hF', hF] at this
        simpa using this.symm
  -- all processes
  have hun : coarseSet G F = (Finset.range c.P).biUnion T := by
    ext I
    simp only [coarseSet, Finset.mem_eraseNone, Finset.mem_image, Finset.mem_biUnion, Finset.mem_range, hT]
    constructor
    · rintro ⟨g, hg, hF⟩
      obtain ⟨p, hp, e, he, rfl, ho⟩ := hD.owned g hg
      exact ⟨p, hp, e, he, ho, hF⟩
    · rintro ⟨p, hp, e, he, ho, hF⟩
      exact ⟨e.g, hD.inG p hp e he, hF⟩
  have hdisj : ∀ p ∈ Finset.range c.P, ∀ q ∈ Finset.range c.P, p ≠ q → Disjoint (T p) (T q) := by
    intro p hp q hq hne
    rw [Finset.mem_range] at hp hq
    rw [Finset.disjoint_left]
    intro I h1 h2
    obtain ⟨e, he, ho, hF⟩ := (hT p I).mp h1
    obtain ⟨f, hf, ho', hF'⟩ := (hT q I).mp h2
    obtain ⟨c1, hc1, hg1, ha1⟩ := hK.known p hp e he I hF
    obtain ⟨c2, hc2, hg2, ha2⟩ := hK.known q hq f hf I hF'
    exact hne (hK.shared.unique p q hp hq c1 hc1 c2 hc2 (ha1.mpr ho) (ha2.mpr ho') (by rw [hg1, hg2]))
  rw [hun, Finset.card_biUnion hdisj]
  unfold HierEnv.noAggregates HierEnv.sum
  have hsum : ∀ (f : Nat → Nat) n, ((List.range n).map f).sum = ∑ i ∈ Finset.range n, f i := by
    intro f n
    induction n with
    | zero => rfl
    | succ n ih => rw [List.range_succ, List.map_append, List.sum_append, ih, Finset.sum_range_succ]; simp
  rw [hsum]
  exact Finset.sum_congr rfl fun p hp => hcard p (Finset.mem_range.mp hp)

end Amg
end Istl
