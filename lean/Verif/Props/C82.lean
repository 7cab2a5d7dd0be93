import Verif.Lemmas.Repartition4
import Verif.Props.C81
import Verif.Props.C44

/-!
# C82 — the new decomposition after repartitioning

`buildCommunication` on all processes, for every decomposition, every graph, every assignment of the indices to processes and every
order in which the messages arrive.
-/

namespace Istl
namespace Par
open Amg

variable {P : Nat} {old : Nat → PIS} {osz : Nat → Nat} {G : Finset Nat} {gr : Nat → Graph} {parts : Nat → List Nat} {W : Nat → Nat}

/-- The messages a process waits for are those that are sent: the processes that have an index going to `q`, once each. -/
theorem C82_awaited (h : Assign P old osz G gr parts W) (q : Nat) :
    ∃ l, recvFrom P parts q = .ok l ∧ l.Pairwise (· < ·) ∧
      (∀ p, p ∈ l ↔ p < P ∧ q ∈ sendTo (parts p)) ∧ ∀ p, p ∈ l ↔ p < P ∧ ∃ e ∈ old p, W e.g = q := by
  refine ⟨_, recvFrom_ok P parts q, (List.pairwise_lt_range).sublist List.filter_sublist, fun p => ?_, fun p => ?_⟩
  · rw [List.mem_filter, List.mem_range, decide_eq_true_eq, mem_sendTo]
  · rw [List.mem_filter, List.mem_range, decide_eq_true_eq]
    refine and_congr_right fun hp => ?_
    constructor
    · intro hq
      obtain ⟨i, hi⟩ := List.mem_iff_getElem?.1 hq
      have hlt := (List.getElem?_eq_some_iff.1 hi).1
      rw [h.len p hp] at hlt
      obtain ⟨e, he, rfl⟩ := h.dec.covered p hp i hlt
      have := h.val p hp e he
      rw [hi] at this
      exact ⟨e, he, (Option.some.inj this).symm⟩
    · rintro ⟨e, he, hw⟩
      exact h.goes hp he hw

/-- **The index set**: process `q` gets exactly the indices assigned to it as owner, and the neighbours of these in the graph of the old owner
as copies. -/
theorem C82_index_set (h : Assign P old osz G gr parts W) {q : Nat} {order : List Nat}
    (ho : order.Perm ((List.range P).filter fun p => q ∈ parts p)) :
    ∃ N, buildCommunication P gr parts old q order = .ok N ∧ NewSet P old G gr W q N.pis := by
  obtain ⟨N, e, h1, _⟩ := h.build ho
  exact ⟨N, e, h1⟩

/-- **Decomposition**: the new index sets are a decomposition of the same global indices with consecutive local indices. -/
theorem C82_decomposition (h : Assign P old osz G gr parts W) {order : Nat → List Nat}
    (ho : ∀ q, q < P → (order q).Perm ((List.range P).filter fun p => q ∈ parts p)) {N : Nat → NewComm}
    (hN : ∀ q, q < P → buildCommunication P gr parts old q (order q) = .ok (N q)) :
    Decomp P (fun q => (N q).pis) (fun q => (N q).pis.length) G ∧
    ∀ g ∈ G, ∀ q, q < P → ((∃ e ∈ (N q).pis, e.g = g ∧ e.attr = .owner) ↔ q = W g) := by
  have hs : ∀ q, q < P → NewSet P old G gr W q (N q).pis := by
    intro q hq
    obtain ⟨N', e, h1⟩ := C82_index_set h (ho q hq)
    rw [hN q hq] at e
    obtain rfl := Res.ok.inj e
    exact h1
  refine ⟨h.decomp hs, fun g hg q hq => ?_⟩
  rw [(hs q hq).owner g]
  exact ⟨fun hh => hh.2.symm, fun hh => ⟨hg, hh.symm⟩⟩

/-- **Closed**: a process knows both ends of every edge of its new indices. -/
theorem C82_closed (h : Assign P old osz G gr parts W) {q : Nat} {order : List Nat}
    (ho : order.Perm ((List.range P).filter fun p => q ∈ parts p)) {N : NewComm} (hN : buildCommunication P gr parts old q order = .ok N) :
    ∀ e ∈ N.pis, e.attr = .owner → ∀ g, OwnEdge P old gr e.g g → ∃ f ∈ N.pis, f.g = g := by
  obtain ⟨N', e, h1⟩ := C82_index_set h ho
  rw [hN] at e
  obtain rfl := Res.ok.inj e
  exact fun e he ha g hg => h.closed h1 he ha hg

/-- **Interface**: the lists of the redistribution interface, built from the partition on the sending side and from the messages on the
receiving side, are those of the owner-to-owner interface between the old and the new index sets, in the same order on both sides. -/
theorem C82_interface (h : Assign P old osz G gr parts W) {p q : Nat} (hp : p < P) {order : List Nat}
    (ho : order.Perm ((List.range P).filter fun p => q ∈ parts p)) {N : NewComm} (hN : buildCommunication P gr parts old q order = .ok N) :
    sendIface (old p) (parts p) q = .ok (sendList isOwner isOwner (old p) N.pis) ∧
    N.recv p = recvList isOwner isOwner N.pis (old p) ∧
    (sendList isOwner isOwner (old p) N.pis).length = (N.recv p).length := by
  obtain ⟨N', e, h1, h2, _⟩ := h.build ho
  rw [hN] at e
  obtain rfl := Res.ok.inj e
  refine ⟨h.sendIface_eq hp h1, h2 p hp, ?_⟩
  rw [h2 p hp, sendList_eq, recvList_eq, List.length_map, List.length_map]
  have := congrArg List.length (aligned (src := isOwner) (dst := isOwner) (h.dec.ok p hp) h1.ok)
  simpa using this

/-- **Participation**: a process takes part in the new communication if and only if it owns an index then, if and only if its index set is
not empty. -/
theorem C82_participation (h : Assign P old osz G gr parts W) {q : Nat} {order : List Nat}
    (ho : order.Perm ((List.range P).filter fun p => q ∈ parts p)) {N : NewComm} (hN : buildCommunication P gr parts old q order = .ok N) :
    (N.exists' = true ↔ ∃ e ∈ N.pis, e.attr = .owner) ∧ (N.exists' = true ↔ N.pis ≠ []) := by
  obtain ⟨N', e, h1, _, h3, _⟩ := h.build ho
  rw [hN] at e
  obtain rfl := Res.ok.inj e
  have h4 : N.exists' = true ↔ ∃ e ∈ N.pis, e.attr = .owner := by
    rw [h3]
    constructor
    · rintro ⟨g, hg, hw⟩
      obtain ⟨e, he, _, ha⟩ := (h1.owner g).2 ⟨hg, hw⟩
      exact ⟨e, he, ha⟩
    · rintro ⟨e, he, ha⟩
      obtain ⟨hg, hw⟩ := (h1.owner e.g).1 ⟨e, he, rfl, ha⟩
      exact ⟨e.g, hg, hw⟩
  refine ⟨h4, h4.trans ⟨?_, ?_⟩⟩
  · rintro ⟨e, he, _⟩ hh
    rw [hh] at he; cases he
  · intro hh
    obtain ⟨e, l, hl⟩ := List.ne_nil_iff_exists_cons.1 hh
    have he : e ∈ N.pis := by rw [hl]; exact List.mem_cons_self ..
    cases ha : e.attr with
    | owner => exact ⟨e, he, ha⟩
    | overlap => exact absurd ha (h1.attr e he)
    | copy =>
      obtain ⟨_, g0, hw, p, hp, e0, he0, _, rfl, _⟩ := (h1.copy e.g).1 ⟨e, he, rfl, ha⟩
      obtain ⟨e', he', _, ha'⟩ := (h1.owner e0.g).2 ⟨h.dec.inG p hp e0 he0, hw⟩
      exact ⟨e', he', ha'⟩

/-- **Neighbours**: the owners of all copies are neighbours; every neighbour takes part in the new communication and is
translated to its rank there; the ranks of different neighbours differ. -/
theorem C82_neighbours (h : Assign P old osz G gr parts W) {q : Nat} {order : List Nat}
    (ho : order.Perm ((List.range P).filter fun p => q ∈ parts p)) {N : NewComm} (hN : buildCommunication P gr parts old q order = .ok N) :
    (∀ n, n ∈ N.procs ↔ NewNeighbour P old gr W q n) ∧
    (∀ e ∈ N.pis, e.attr = .copy → W e.g ∈ N.procs) ∧
    (∀ n ∈ N.procs, n < P ∧ ∃ g ∈ G, W g = n) ∧
    N.nbrs = N.procs.map (fun n => some (rankOf (fun x => ∃ g ∈ G, W g = x) n)) ∧ N.nbrs.Nodup := by
  obtain ⟨N', e, h1, _, _, h4, h5, h6⟩ := h.build ho
  rw [hN] at e
  obtain rfl := Res.ok.inj e
  have hex : ∀ n ∈ N.procs, n < P ∧ ∃ g ∈ G, W g = n := by
    intro n hn
    obtain ⟨p, hp, _, _, _, _, f, hf, _, _, rfl⟩ := (h5 n).1 hn
    have hG := h.dec.inG p hp f hf
    exact ⟨h.lt _ hG, f.g, hG, rfl⟩
  refine ⟨h5, fun e he ha => ?_, hex, h6, ?_⟩
  · obtain ⟨hne, g0, hw, p, hp, e0, he0, ha0, rfl, f, hf, hfg, hl⟩ := (h1.copy e.g).1 ⟨e, he, rfl, ha⟩
    exact (h5 _).2 ⟨p, hp, e0, he0, ha0, hw, f, hf, hl, .inl (by rw [hfg]; exact hne), by rw [hfg]⟩
  · rw [h6]
    unfold List.Nodup
    rw [List.pairwise_map]
    refine h4.imp_of_mem ?_
    intro a b ha hb hab hh
    have := rankOf_lt (part := fun x => ∃ g ∈ G, W g = x) (hex a ha).2 hab
    rw [Option.some.inj hh] at this
    omega

/-- **Neighbours are symmetric** if the edges are (as for a matrix with symmetric pattern): then no process waits in vain when the remote
indices are rebuilt with these neighbours. -/
theorem C82_neighbours_symmetric (h : Assign P old osz G gr parts W) (hsym : ∀ g g', OwnEdge P old gr g g' → OwnEdge P old gr g' g)
    {q n : Nat} {order order' : List Nat}
    (ho : order.Perm ((List.range P).filter fun p => q ∈ parts p)) {N : NewComm} (hN : buildCommunication P gr parts old q order = .ok N)
    (ho' : order'.Perm ((List.range P).filter fun p => n ∈ parts p)) {N' : NewComm}
    (hN' : buildCommunication P gr parts old n order' = .ok N') : n ∈ N.procs → q ∈ N'.procs := by
  intro hn
  by_cases hqn : q = n
  · subst hqn
    rw [(C82_neighbours h ho hN).1] at hn
    rw [(C82_neighbours h ho' hN').1]
    exact hn
  · rw [(C82_neighbours h ho hN).1] at hn
    rw [(C82_neighbours h ho' hN').1]
    obtain ⟨p, hp, e, he, ha, hw, f, hf, hl, _, hfn⟩ := hn
    obtain ⟨p', hp', f', hf', ha', hfg, e', he', heg, hl'⟩ := hsym e.g f.g ⟨p, hp, e, he, ha, rfl, f, hf, rfl, hl⟩
    exact ⟨p', hp', f', hf', ha', by rw [hfg, hfn], e', he', hl', .inl (by rw [heg, hw]; exact hqn), by rw [heg, hw]⟩

/-- **Any order of arrival** gives the same result. -/
theorem C82_order (h : Assign P old osz G gr parts W) {q : Nat} {order order' : List Nat}
    (ho : order.Perm ((List.range P).filter fun p => q ∈ parts p)) (ho' : order'.Perm ((List.range P).filter fun p => q ∈ parts p)) :
    buildCommunication P gr parts old q order = buildCommunication P gr parts old q order' := by
  obtain ⟨m, e, c⟩ := h.collect ho
  obtain ⟨m', e', c'⟩ := h.collect ho'
  have hL : m.owner.insertionSort pairLe = m'.owner.insertionSort pairLe := by
    have hp : ∀ {L : List (Nat × Nat)}, (L.map Prod.fst).Pairwise (· < ·) → L.Pairwise fun a b => a.1 < b.1 := fun hh => List.pairwise_map.1 hh
    have hperm : (m.owner.insertionSort pairLe).Perm (m'.owner.insertionSort pairLe) := by
      refine (List.perm_ext_iff_of_nodup ((hp c.asc).imp ?_) ((hp c'.asc).imp ?_)).2 ?_
      · rintro a b hab rfl; omega
      · rintro a b hab rfl; omega
      · rintro ⟨g, p⟩
        rw [c.mem, c'.mem]
    exact hperm.eq_of_pairwise (fun a b _ _ h1 h2 => absurd h1 (by omega)) (hp c.asc) (hp c'.asc)
  have hO : m.ovl = m'.ovl := asc_ext c.ovl c'.ovl fun x => by rw [c.memOvl, c'.memOvl]
  have hP : m.procs = m'.procs := asc_ext c.procs c'.procs fun x => by rw [c.memProcs, c'.memProcs]
  unfold buildCommunication newIndices
  rw [e, e']
  simp only [Res.ok_bind, hL, hO, hP]

/-- **Operator**: redistributing the matrix to the new index sets keeps the operator, when the graph is that of the matrix and the owned
rows have no entry at an index with attribute `overlap`. -/
theorem C82_operator {B : Type} [AddCommGroup B] {A : Nat → SpMat B} {M : Nat → Nat → B} {gmax : Nat}
    (h : Assign P old osz G gr parts W) (hgr : ∀ p, p < P → matrixGraph (A p) = .ok (gr p))
    (hM : DistMat (· = .owner) P old osz G A M) (hg : gmax ∉ G)
    (hdiag : ∀ p, p < P → ∀ e ∈ old p, e.attr = .owner → (A p).Has e.loc e.loc)
    (hov : ∀ p, p < P → ∀ e ∈ old p, e.attr = .owner → ∀ f ∈ old p, f.attr = .overlap → M e.g f.g = 0)
    {order : Nat → List Nat} (ho : ∀ q, q < P → (order q).Perm ((List.range P).filter fun p => q ∈ parts p))
    (one junk : B) (m : SpMat B) (hmn : m.n = 0) (hmm : m.m = 0) (o : Nat → Orders) (hoo : ∀ q, q < P → (o q).Complete P) :
    ∃ (C : Nat → NewComm) (N : Nat → SpMat B),
      (∀ q, q < P → buildCommunication P gr parts old q (order q) = .ok (C q)) ∧
      (∀ q, q < P → redistributeMatrix gmax one junk old (fun q => (C q).pis) A m q (o q) = .ok (N q)) ∧
      DistMat (· = .owner) P (fun q => (C q).pis) (fun q => (C q).pis.length) G N M := by
  have hC : ∀ q, ∃ C, q < P → buildCommunication P gr parts old q (order q) = .ok C := by
    intro q
    by_cases hq : q < P
    · obtain ⟨C, e, _⟩ := C82_index_set h (ho q hq)
      exact ⟨C, fun _ => e⟩
    · exact ⟨⟨[], fun _ => [], [], [], false⟩, fun hh => absurd hh hq⟩
  choose C hC using hC
  have hdec := (C82_decomposition h ho hC).1
  have hset : Setting P old (fun q => (C q).pis) osz (fun q => (C q).pis.length) G gmax A :=
    ⟨h.dec, hdec, hM.wf, hM.rows, hM.cols, hdiag, hg⟩
  obtain ⟨N, h1, h2⟩ := C81_operator hset hM hov (fun q hq e he ha g hgG hno => by
    by_contra hne
    obtain ⟨p, hp, e0, he0, hge, ha0⟩ := h.dec.owned e.g (hdec.inG q hq e he)
    by_cases hkn : ∃ f ∈ old p, f.g = g
    · obtain ⟨f, hf, hfg⟩ := hkn
      have hent := hM.entry p hp e0 he0 ha0 f hf
      rw [hge, hfg] at hent
      have hlt : e0.loc < (A p).n := by rw [hM.rows p hp]; exact h.dec.bounded p hp e0 he0
      have hHas : (A p).Has e0.loc f.loc := by
        by_contra hnh
        have : (A p).entry e0.loc f.loc = 0 := Row.val_of_not_mem fun b hb => hnh ⟨hlt, b, hb⟩
        exact hne (hent.symm.trans this)
      by_cases hself : f.loc = e0.loc
      · have := idx_eq_of_loc (h.dec.ok p hp) hf he0 hself
        subst this
        exact hno e he (hge.symm.trans hfg)
      · obtain ⟨_, _, _, hadj⟩ := matrixGraph_wf (A p) (hM.wf p hp) (gr p) (hgr p hp)
        obtain ⟨f', hf', hfg'⟩ := C82_closed h (ho q hq) (hC q hq) e he ha g
          ⟨p, hp, e0, he0, ha0, hge, f, hf, hfg, (hadj e0.loc hlt f.loc).2 ⟨hHas, hself⟩⟩
        exact hno f' hf' hfg'
    · have := hM.closed p hp e0 he0 ha0 g hgG (fun f hf hfg => hkn ⟨f, hf, hfg⟩)
      rw [hge] at this
      exact hne this) one junk m hmn hmm o hoo
  exact ⟨C, N, hC, h1, h2⟩

/-! ## Non-vacuity: the Laplacian of C81, index 2 moves to process 0 -/

def rpGraph (p : Nat) : Graph := ⟨3, fun v => (matrixEdges (rdMat p) v).map Prod.fst⟩

def rpPart : Nat → List Nat
  | 0 => [0, 0, 0]
  | 1 => [0, 1, 0]
  | _ => []

def rpTo (g : Nat) : Nat := if g = 3 then 1 else 0

theorem rp_graph : ∀ p, p < 2 → matrixGraph (rdMat p) = .ok (rpGraph p) := by
  intro p hp
  interval_cases p <;> rfl

theorem rp_assign : Assign 2 (rdOld .copy) (fun _ => 3) {0, 1, 2, 3} rpGraph rpPart rpTo where
  dec := rd_old .copy (by decide)
  wf p hp := (matrixGraph_wf (rdMat p) (rd_wf p hp) _ (rp_graph p hp)).2.2.1
  n p hp := rfl
  len p hp := by interval_cases p <;> rfl
  val p hp := by interval_cases p <;> decide
  lt g hg := by unfold rpTo; split <;> omega

/-- The messages are received in one of the possible orders; index 3 is owned by process 1 and a copy on process 0. -/
example : (match buildCommunication 2 rpGraph rpPart (rdOld .copy) 0 [1, 0] with
    | .ok N => decide (N.pis = [⟨0, 0, .owner⟩, ⟨1, 1, .owner⟩, ⟨2, 2, .owner⟩, ⟨3, 3, .copy⟩] ∧ N.recv 0 = [0, 1] ∧ N.recv 1 = [2] ∧
        N.procs = [0, 1] ∧ N.nbrs = [some 0, some 1] ∧ N.exists' = true)
    | _ => false) = true := by decide +kernel

example : [1, 0].Perm ((List.range 2).filter fun p => 0 ∈ rpPart p) := by decide

example : ∃ (C : Nat → NewComm) (N : Nat → SpMat ℤ),
      (∀ q, q < 2 → buildCommunication 2 rpGraph rpPart (rdOld .copy) q ((List.range 2).filter fun p => q ∈ rpPart p) = .ok (C q)) ∧
      (∀ q, q < 2 → redistributeMatrix (1000 : Nat) 1 99 (rdOld .copy) (fun q => (C q).pis) rdMat ⟨0, 0, fun _ => []⟩ q rdOrders = .ok (N q)) ∧
      DistMat (· = .owner) 2 (fun q => (C q).pis) (fun q => (C q).pis.length) {0, 1, 2, 3} N demoM :=
  C82_operator rp_assign rp_graph (rd_dist .copy (by decide)) (by decide)
    (rd_setting .copy (by decide) (rd_old .copy (by decide))).diag
    (fun p hp e _ _ f hf hh => by
      interval_cases p <;> simp only [rdOld, List.mem_cons, List.not_mem_nil, or_false] at hf <;> rcases hf with rfl | rfl | rfl <;> cases hh)
    (fun q _ => List.Perm.refl _) 1 99 ⟨0, 0, fun _ => []⟩ rfl rfl (fun _ => rdOrders) (fun _ _ => rd_orders)

/-! ## Two copies of an index are not neighbours -/

/-- Everything is on process 0 of three. -/
def ccOld : Nat → PIS
  | 0 => [⟨0, 0, .owner⟩, ⟨1, 1, .owner⟩, ⟨2, 2, .owner⟩]
  | _ => []

/-- The path 0 - 1 - 2. -/
def ccGraph : Nat → Graph
  | 0 => ⟨3, fun v => match v with | 0 => [1] | 1 => [0, 2] | _ => [1]⟩
  | _ => ⟨0, fun _ => []⟩

def ccPart : Nat → List Nat
  | 0 => [0, 1, 2]
  | _ => []

theorem cc_assign : Assign 3 ccOld (fun p => if p = 0 then 3 else 0) {0, 1, 2} ccGraph ccPart id where
  dec := {
    ok := fun p hp => by interval_cases p <;> exact ⟨by decide, by decide⟩
    bounded := fun p hp => by interval_cases p <;> decide
    covered := fun p hp => by interval_cases p <;> decide
    inG := fun p hp => by interval_cases p <;> decide
    owned := by decide
    unique := fun p q hp hq => by interval_cases p <;> interval_cases q <;> decide }
  wf p hp := by interval_cases p <;> (unfold Graph.WF ccGraph; decide)
  n p hp := by interval_cases p <;> rfl
  len p hp := by interval_cases p <;> rfl
  val p hp := by interval_cases p <;> decide
  lt g hg := by
    have : ∀ g ∈ ({0, 1, 2} : Finset Nat), id g < 3 := by decide
    exact this g hg

/-- **Copies of the same index do not become neighbours** (finding): processes 0 and 2 both have a copy of index 1, but neither is in the
list of neighbours of the other, from which the remote indices are rebuilt. Exchanges between copies (`addOwnerCopyToAll`,
`addOwnerCopyToOwnerCopy`) on the new communication do not see this pair. -/
theorem C82_copies_unconnected :
    Assign 3 ccOld (fun p => if p = 0 then 3 else 0) {0, 1, 2} ccGraph ccPart id ∧
    ∃ N0 N2, buildCommunication 3 ccGraph ccPart ccOld 0 [0] = .ok N0 ∧ buildCommunication 3 ccGraph ccPart ccOld 2 [0] = .ok N2 ∧
      (∃ e ∈ N0.pis, e.g = 1 ∧ e.attr = .copy) ∧ (∃ e ∈ N2.pis, e.g = 1 ∧ e.attr = .copy) ∧ 2 ∉ N0.procs ∧ 0 ∉ N2.procs := by
  refine ⟨cc_assign, ?_⟩
  have h0 : (match buildCommunication 3 ccGraph ccPart ccOld 0 [0] with
    | .ok N => decide ((∃ e ∈ N.pis, e.g = 1 ∧ e.attr = .copy) ∧ 2 ∉ N.procs) | _ => false) = true := by decide +kernel
  have h2 : (match buildCommunication 3 ccGraph ccPart ccOld 2 [0] with
    | .ok N => decide ((∃ e ∈ N.pis, e.g = 1 ∧ e.attr = .copy) ∧ 0 ∉ N.procs) | _ => false) = true := by decide +kernel
  cases e0 : buildCommunication 3 ccGraph ccPart ccOld 0 [0] with
  | ok N0 =>
    cases e2 : buildCommunication 3 ccGraph ccPart ccOld 2 [0] with
    | ok N2 =>
      rw [e0] at h0
      rw [e2] at h2
      dsimp only at h0 h2
      rw [decide_eq_true_eq] at h0 h2
      exact ⟨N0, N2, rfl, rfl, h0.1, h2.1, h0.2, h2.2⟩
    | throw x => rw [e2] at h2; cases h2
    | ub => rw [e2] at h2; cases h2
  | throw x => rw [e0] at h0; cases h0
  | ub => rw [e0] at h0; cases h0

end Par
end Istl
