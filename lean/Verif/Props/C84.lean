import Verif.Lemmas.DomainMap5

/-!
# C84 — from the partition to processes
-/

namespace Istl
namespace Par
open Amg

variable {P : Nat} {pis : Nat → PIS} {n : Nat → Nat} {G : Finset Nat}

/-- **`getDomain`**: with at most as many domains as processes it maps the domains to different processes, all processes compute the same
mapping, each domain goes to a process with the most vertices of it among those still free, and `myDomain` is the domain of the own
process, if that process has vertices of it. -/
theorem C84_get_domain {npes nparts : Nat} {part : Nat → List Nat} (h : nparts ≤ npes) (hp : ∀ p, p < npes → ∀ x ∈ part p, x < nparts) :
    ∃ m, DomainMapping npes nparts m ∧ BestMapping npes part m ∧
      ∀ me, me < npes → ∃ mine, getDomain npes nparts part me = .ok (mine, m.map some) ∧
        ∀ i, mine = some i ↔ m[i]? = some me ∧ 0 < (part me).count i :=
  getDomain_ok h hp

theorem order_perm {old : Nat → PIS} {osz : Nat → Nat} {gr : Nat → Graph} {parts : Nat → List Nat} {W : Nat → Nat}
    (h : Assign P old osz G gr parts W) {q : Nat} {order : List Nat} (hnd : order.Nodup)
    (hmem : ∀ p, p ∈ order ↔ p < P ∧ ∃ e ∈ old p, W e.g = q) : order.Perm ((List.range P).filter fun p => q ∈ parts p) := by
  refine (List.perm_ext_iff_of_nodup hnd (List.nodup_range.filter _)).2 fun p => ?_
  obtain ⟨l, _, _, h1, h2⟩ := C82_awaited h q
  rw [hmem, ← h2, h1, List.mem_filter, List.mem_range, decide_eq_true_eq, mem_sendTo]

/-- **The whole of `graphRepartition`**: whatever partition the partitioner returns, there is one assignment `W` of the indices to processes
such that every process gets the index set for this assignment, and these are a decomposition of the indices again. `W` takes the
result of the partitioner in order and maps domains to different processes; not more than `nparts` processes take part afterwards. -/
theorem C84_repartition {gr : Nat → Graph} {nparts : Nat} {part : Nat → List Nat} (h : Holed P pis (fun p => (gr p).n) G)
    (hwf : ∀ p, p < P → (gr p).WF) (h0 : 0 < nparts) (hnp : nparts ≤ P)
    (hl : 1 < nparts → ∀ p, p < P → (part p).length = owners (fillIndexSetHoles P (fun p => (gr p).n) pis p))
    (hx : 1 < nparts → ∀ p, p < P → ∀ x ∈ part p, x < nparts)
    {order : Nat → List Nat} (ho : ∀ q, q < P → (order q).Perm ((List.range P).filter (· ≠ q))) :
    ∃ G' m W, G ⊆ G' ∧ DomainMapping P nparts m ∧
      (1 < nparts → BestMapping P part m ∧ InOrder P (fillIndexSetHoles P (fun p => (gr p).n) pis) part m W) ∧
      (∀ g ∈ G', W g ∈ m) ∧
      ∀ order' : Nat → List Nat, (∀ q, q < P → (order' q).Nodup ∧
          ∀ p, p ∈ order' q ↔ p < P ∧ ∃ e ∈ fillIndexSetHoles P (fun p => (gr p).n) pis p, W e.g = q) →
        ∃ N : Nat → NewComm, (∀ q, q < P → graphRepartition P nparts gr pis part q order (order' q) = .ok (N q)) ∧
          (∀ q, q < P → NewSet P (fillIndexSetHoles P (fun p => (gr p).n) pis) G' gr W q (N q).pis) ∧
          Decomp P (fun q => (N q).pis) (fun q => (N q).pis.length) G' ∧
          ((List.range P).filter fun q => (N q).exists').length ≤ nparts := by
  obtain ⟨G', hG, _, hd, _⟩ := C83_fill_holes h
  obtain ⟨m, W, parts, hm, hb, _, hW, hA, hWm, hrun⟩ := graphRepartition_ok h hwf h0 hnp hl hx ho hd
  refine ⟨G', m, W, hG, hm, fun h1 => ⟨hb h1, ?_⟩, hWm, fun order' ho' => ?_⟩
  · have hpp : (fun p => partOrZero nparts (fillIndexSetHoles P (fun p => (gr p).n) pis p) (part p)) = part := by
      funext p; unfold partOrZero; rw [if_pos h1]
    rw [hpp] at hW
    exact hW
  · have hperm : ∀ q, q < P → (order' q).Perm ((List.range P).filter fun p => q ∈ parts p) :=
      fun q hq => order_perm hA (ho' q hq).1 (ho' q hq).2
    have hN : ∀ q, ∃ N, q < P → buildCommunication P gr parts (fillIndexSetHoles P (fun p => (gr p).n) pis) q (order' q) = .ok N ∧
        NewSet P (fillIndexSetHoles P (fun p => (gr p).n) pis) G' gr W q N.pis := by
      intro q
      by_cases hq : q < P
      · obtain ⟨N, a, b⟩ := C82_index_set hA (hperm q hq)
        exact ⟨N, fun _ => ⟨a, b⟩⟩
      · exact ⟨⟨[], fun _ => [], [], [], false⟩, fun hh => absurd hh hq⟩
    choose N hN using hN
    refine ⟨N, fun q hq => by rw [hrun]; exact (hN q hq).1, fun q hq => (hN q hq).2,
      (C82_decomposition hA hperm fun q hq => (hN q hq).1).1, ?_⟩
    rw [← hm.len]
    refine List.Subperm.length_le (List.subperm_of_subset (List.nodup_range.filter _) fun q hq => ?_)
    have hq' := List.mem_filter.1 hq
    have hqP := List.mem_range.1 hq'.1
    obtain ⟨e, he, ha⟩ := (C82_participation hA (hperm q hqP) (hN q hqP).1).1.1 hq'.2
    obtain ⟨hg, hw⟩ := ((hN q hqP).2.owner e.g).1 ⟨e, he, rfl, ha⟩
    rw [← hw]
    exact hWm _ hg

/-- **Agglomeration**: with `nparts == 1` process 0 owns everything, has no copies, and no other process takes part. -/
theorem C84_agglomeration {gr : Nat → Graph} {part : Nat → List Nat} (h : Holed P pis (fun p => (gr p).n) G) (hwf : ∀ p, p < P → (gr p).WF)
    (hP : 0 < P) {order : Nat → List Nat} (ho : ∀ q, q < P → (order q).Perm ((List.range P).filter (· ≠ q))) :
    ∃ G', G ⊆ G' ∧ ∀ q, q < P → ∀ order' : List Nat,
      (order'.Nodup ∧ ∀ p, p ∈ order' ↔ q = 0 ∧ p < P ∧ 0 < (gr p).n) →
        ∃ N, graphRepartition P 1 gr pis part q order order' = .ok N ∧
          (q = 0 → (∀ e ∈ N.pis, e.attr = .owner) ∧ ∀ g ∈ G', ∃ e ∈ N.pis, e.g = g) ∧
          (q ≠ 0 → N.pis = [] ∧ N.exists' = false) := by
  obtain ⟨G', hG, _, hd, _⟩ := C83_fill_holes h
  obtain ⟨m, W, parts, hm, hb, h1, hW, hA, hWm, hrun⟩ := graphRepartition_ok h hwf (nparts := 1) (part := part) (by omega) hP
    (fun hh => by omega) (fun hh => by omega) ho hd
  have hm0 := h1 rfl
  subst hm0
  have hW0 : ∀ g ∈ G', W g = 0 := fun g hg => by simpa using hWm g hg
  refine ⟨G', hG, fun q hq order' ho' => ?_⟩
  have hperm := order_perm hA (q := q) ho'.1 fun p => by
    rw [ho'.2]
    constructor
    · rintro ⟨rfl, hp, hn⟩
      obtain ⟨e, he, _⟩ := hd.covered p hp 0 hn
      exact ⟨hp, e, he, hW0 _ (hd.inG p hp e he)⟩
    · rintro ⟨hp, e, he, hw⟩
      have hb' := hd.bounded p hp e he
      exact ⟨by rw [← hw, hW0 _ (hd.inG p hp e he)], hp, by omega⟩
  obtain ⟨N, hN, hs⟩ := C82_index_set hA hperm
  have hNG : ∀ e ∈ N.pis, e.g ∈ G' := by
    intro e he
    cases ha : e.attr with
    | owner => exact ((hs.owner e.g).1 ⟨e, he, rfl, ha⟩).1
    | overlap => exact absurd ha (hs.attr e he)
    | copy =>
      obtain ⟨_, g0, _, p, hp, _, _, _, _, f, hf, hfg, _⟩ := (hs.copy e.g).1 ⟨e, he, rfl, ha⟩
      rw [← hfg]
      exact hd.inG p hp f hf
  refine ⟨N, by rw [hrun]; exact hN, ?_, ?_⟩
  · rintro rfl
    refine ⟨fun e he => ?_, fun g hg => ?_⟩
    · cases ha : e.attr with
      | owner => rfl
      | overlap => exact absurd ha (hs.attr e he)
      | copy => exact absurd (hW0 _ (hNG e he)) ((hs.copy e.g).1 ⟨e, he, rfl, ha⟩).1
    · obtain ⟨e, he, hge, _⟩ := (hs.owner g).2 ⟨hg, hW0 g hg⟩
      exact ⟨e, he, hge⟩
  · intro hq0
    obtain ⟨hp1, hp2⟩ := C82_participation hA hperm hN
    have hex : N.exists' = false := by
      by_contra hne
      obtain ⟨e, he, ha⟩ := hp1.1 (by simpa using hne)
      obtain ⟨hg, hw⟩ := (hs.owner e.g).1 ⟨e, he, rfl, ha⟩
      exact hq0 (by rw [← hw, hW0 _ hg])
    refine ⟨?_, hex⟩
    by_contra hne
    have := hp2.2 hne
    rw [hex] at this
    exact absurd this (by simp)

/-- **The partition is followed** if on each process the owned indices have the same order by local and by global index: then each index goes
to the process of the domain the partitioner chose for its vertex. -/
theorem C84_follows_partition (h : Decomp P pis n G) {part : Nat → List Nat} {m : List Nat} {ν W : Nat → Nat} (hν : Numbering P pis G ν)
    (hW : InOrder P pis part m W)
    (hord : ∀ p, p < P → ∀ e ∈ pis p, ∀ f ∈ pis p, e.attr = .owner → f.attr = .owner → e.g < f.g → e.loc < f.loc) :
    AsNumbered P pis part m ν W :=
  asNumbered_of_order h hν hW hord

/-- **`commGraphRepartition`**: all indices owned by process `p` go to process `dest p`, and each process gets the index set for this. -/
theorem C84_comm_graph_repartition {gr : Nat → Graph} (h : Holed P pis (fun p => (gr p).n) G) (hwf : ∀ p, p < P → (gr p).WF) {dest : Nat → Nat}
    (hdest : ∀ p, p < P → dest p < P) {order : Nat → List Nat} (ho : ∀ q, q < P → (order q).Perm ((List.range P).filter (· ≠ q))) :
    ∃ G' W, G ⊆ G' ∧ (∀ p, p < P → ∀ e ∈ fillIndexSetHoles P (fun p => (gr p).n) pis p, e.attr = .owner → W e.g = dest p) ∧
      ∀ order' : Nat → List Nat, (∀ q, q < P → (order' q).Nodup ∧
          ∀ p, p ∈ order' q ↔ p < P ∧ ∃ e ∈ fillIndexSetHoles P (fun p => (gr p).n) pis p, W e.g = q) →
        ∃ N : Nat → NewComm, (∀ q, q < P → commGraphRepartition P gr pis dest q order (order' q) = .ok (N q)) ∧
          (∀ q, q < P → NewSet P (fillIndexSetHoles P (fun p => (gr p).n) pis) G' gr W q (N q).pis) ∧
          Decomp P (fun q => (N q).pis) (fun q => (N q).pis.length) G' := by
  obtain ⟨G', hG, _, hd, _⟩ := C83_fill_holes h
  obtain ⟨W, parts, hW, hA, hrun⟩ := commGraphRepartition_ok h hwf hdest ho hd
  refine ⟨G', W, hG, hW, fun order' ho' => ?_⟩
  have hperm : ∀ q, q < P → (order' q).Perm ((List.range P).filter fun p => q ∈ parts p) :=
    fun q hq => order_perm hA (ho' q hq).1 (ho' q hq).2
  have hN : ∀ q, ∃ N, q < P → buildCommunication P gr parts (fillIndexSetHoles P (fun p => (gr p).n) pis) q (order' q) = .ok N ∧
      NewSet P (fillIndexSetHoles P (fun p => (gr p).n) pis) G' gr W q N.pis := by
    intro q
    by_cases hq : q < P
    · obtain ⟨N, a, b⟩ := C82_index_set hA (hperm q hq)
      exact ⟨N, fun _ => ⟨a, b⟩⟩
    · exact ⟨⟨[], fun _ => [], [], [], false⟩, fun hh => absurd hh hq⟩
  choose N hN using hN
  exact ⟨N, fun q hq => by rw [hrun]; exact (hN q hq).1, fun q hq => (hN q hq).2, (C82_decomposition hA hperm fun q hq => (hN q hq).1).1⟩

/-- **The graph of the processes**: after the shift the gathered arrays hold for each process, between its entry of `gxadj` and the next, its
neighbours. -/
theorem C84_comm_graph (nb : Nat → List Nat) (hP : 0 < P) :
    ∃ x a, commGraph P nb = .ok (x, a) ∧ x[0]? = some 0 ∧ x[P]? = some a.length ∧
      ∀ p, p < P → ∃ lo hi, x[p]? = some lo ∧ x[p + 1]? = some hi ∧ lo ≤ hi ∧ (a.drop lo).take (hi - lo) = nb p := by
  obtain ⟨x, e, _, h2, _⟩ := shift_ok nb hP (P - 1) (by omega)
  refine ⟨x, (List.range P).flatMap nb, ?_, ?_, ?_, fun p hp => ⟨_, _, h2 p (by omega), h2 (p + 1) (by omega), ?_, flat_take nb P p hp⟩⟩
  · unfold commGraph
    rw [e, Res.ok_bind]
  · rw [h2 0 (by omega)]; simp [edgesBefore]
  · rw [h2 P (by omega)]
    congr 1
    unfold edgesBefore
    exact (flat_length nb P).symm
  · unfold edgesBefore
    rw [Finset.sum_range_succ]
    omega

/-- **`isValidGraph`** on arrays of the right size: it accepts if and only if all offsets are at most the number of edges and all targets at
most the number of vertices. The second bound is off by one. -/
theorem C84_valid_graph {noVtx gno noEdges : Nat} {xadj adj : List Nat} (hx : xadj.length = noVtx + 1)
    (ha : ∀ v b : Nat, v ≤ noVtx → xadj[v]? = some b → b ≤ adj.length) (hmono : ∀ v a b : Nat, xadj[v]? = some a → xadj[v + 1]? = some b → a ≤ b) :
    ∃ ok, isValidGraph noVtx gno noEdges xadj adj = .ok ok ∧
      (ok = true ↔ ∀ v a b : Nat, xadj[v]? = some a → xadj[v + 1]? = some b → a ≤ noEdges ∧ b ≤ noEdges ∧ ∀ t ∈ (adj.drop a).take (b - a), t ≤ gno) := by
  have key : ∀ k, k ≤ noVtx → ∃ ok, (List.range k).foldlM (fun ok v => do
      let a ← rd xadj v
      let b ← rd xadj (v + 1)
      let c ← validTargets gno adj a b
      .ok (if a > noEdges ∨ b > noEdges ∨ c = false then false else ok)) true = Res.ok ok ∧
      (ok = true ↔ ∀ v a b : Nat, v < k → xadj[v]? = some a → xadj[v + 1]? = some b →
        a ≤ noEdges ∧ b ≤ noEdges ∧ ∀ t ∈ (adj.drop a).take (b - a), t ≤ gno) := by
    intro k
    induction k with
    | zero => intro _; exact ⟨true, rfl, by simp⟩
    | succ k ih =>
      intro hk
      obtain ⟨ok, e, h1⟩ := ih (by omega)
      have hl1 : k < xadj.length := by omega
      have hl2 : k + 1 < xadj.length := by omega
      have hg1 : xadj[k]? = some xadj[k] := List.getElem?_eq_getElem hl1
      have hg2 : xadj[k + 1]? = some xadj[k + 1] := List.getElem?_eq_getElem hl2
      have hle := hmono k _ _ hg1 hg2
      have hb := ha (k + 1) _ hk hg2
      obtain ⟨c, hc, hc'⟩ := validTargets_ok gno (adj := adj) (a := xadj[k]) (xadj[k + 1] - xadj[k]) (by omega)
      refine ⟨if xadj[k] > noEdges ∨ xadj[k + 1] > noEdges ∨ c = false then false else ok, ?_, ?_⟩
      · rw [List.range_succ, List.foldlM_append, e, Res.ok_bind, List.foldlM_cons, rd_lt hl1, Res.ok_bind, rd_lt hl2, Res.ok_bind]
        unfold validTargets
        rw [hc, Res.ok_bind, Res.ok_bind]
        rfl
      · by_cases hbad : xadj[k] > noEdges ∨ xadj[k + 1] > noEdges ∨ c = false
        · rw [if_pos hbad]
          constructor
          · intro hh; exact absurd hh (by simp)
          · intro hh
            obtain ⟨a, b, d⟩ := hh k _ _ (by omega) hg1 hg2
            have hct := hc'.2 d
            rcases hbad with h | h | h
            · omega
            · omega
            · rw [hct] at h; exact absurd h (by simp)
        · rw [if_neg hbad, h1]
          simp only [not_or, not_lt, Bool.not_eq_false] at hbad
          constructor
          · intro hh v a b hv hva hvb
            by_cases hvk : v = k
            · subst hvk
              rw [hg1] at hva; rw [hg2] at hvb
              obtain rfl := Option.some.inj hva
              obtain rfl := Option.some.inj hvb
              exact ⟨hbad.1, hbad.2.1, hc'.1 hbad.2.2⟩
            · exact hh v a b (by omega) hva hvb
          · exact fun hh v a b hv => hh v a b (by omega)
  obtain ⟨ok, e, h1⟩ := key noVtx (le_refl _)
  refine ⟨ok, e, ?_⟩
  rw [h1]
  constructor
  · intro hh v a b hva hvb
    have := (List.getElem?_eq_some_iff.1 hvb).1
    exact hh v a b (by omega) hva hvb
  · exact fun hh v a b _ => hh v a b

/-- **Off by one** (finding): a graph with one vertex and an edge to vertex 1, which does not exist, is accepted. -/
theorem C84_valid_graph_accepts_invalid : isValidGraph 1 1 1 [0, 1] [1] = .ok true := by decide

/-! ## Non-vacuity -/

/-- Domain 0 has most vertices on process 1, domain 1 then goes to process 2; domain 2, wanted by nobody, to the free process 0. -/
example : getDomain 3 3 (fun p => match p with | 0 => [0, 1] | 1 => [0, 0, 1, 1, 1] | _ => [0, 1, 1]) 2 =
    .ok (some 1, [some 1, some 2, some 0]) := by decide +kernel

/-- The process that gets the domain without vertices has no `myDomain`. -/
example : getDomain 3 3 (fun p => match p with | 0 => [0, 1] | 1 => [0, 0, 1, 1, 1] | _ => [0, 1, 1]) 0 =
    .ok (none, [some 1, some 2, some 0]) := by decide +kernel

/-- With more domains than processes the search for a free process leaves the vector. -/
example : getDomain 1 2 (fun _ => [0, 1]) 0 = .ub := by decide +kernel

/-- The decomposition of C83 with holes; the filled index sets own 2 and 2 indices. -/
def dmGraph : Nat → Graph := fun _ => ⟨3, fun v => match v with | 0 => [1] | 1 => [0, 2] | _ => [1]⟩

def dmPart : Nat → List Nat
  | 0 => [0, 1]
  | _ => [0, 0]

theorem dm_owners : ∀ p, p < 2 → (dmPart p).length = owners (fillIndexSetHoles 2 (fun p => (dmGraph p).n) fhPis p) := by
  intro p hp
  interval_cases p <;> decide +kernel

theorem dm_wf : ∀ p, p < 2 → (dmGraph p).WF := by
  intro p _ v hv t ht
  have hv : v < 3 := hv
  show t < 3
  interval_cases v <;> simp [dmGraph] at ht <;> omega

example : ∃ (m : List Nat) (W : Nat → Nat), DomainMapping 2 2 m ∧ BestMapping 2 dmPart m ∧
    InOrder 2 (fillIndexSetHoles 2 (fun p => (dmGraph p).n) fhPis) dmPart m W := by
  obtain ⟨_, m, W, _, h1, h2, _⟩ := C84_repartition (gr := dmGraph) (part := dmPart) (nparts := 2) fh_holed dm_wf (by decide) (by decide)
    (fun _ => dm_owners) (fun _ p hp => by interval_cases p <;> decide) (order := fun q => (List.range 2).filter (· ≠ q)) (fun _ _ => List.Perm.refl _)
  exact ⟨m, W, h1, h2 (by decide)⟩

/-- The run: index 3 of process 0, the second by global index, goes to process 0; everything else to process 1. -/
example : (match graphRepartition 2 2 dmGraph fhPis dmPart 0 (fun q => [1 - q]) [0] with
    | .ok N => decide (N.pis = [⟨1, 1, .copy⟩, ⟨3, 0, .owner⟩])
    | _ => false) = true := by decide +kernel

example : (match graphRepartition 2 1 dmGraph fhPis dmPart 0 (fun q => [1 - q]) [1, 0] with
    | .ok N => decide (N.pis = [⟨1, 0, .owner⟩, ⟨2, 1, .owner⟩, ⟨3, 2, .owner⟩, ⟨4, 3, .owner⟩])
    | _ => false) = true := by decide +kernel

example : (match commGraphRepartition 2 dmGraph fhPis (fun p => 1 - p) 0 (fun q => [1 - q]) [1, 0] with
    | .ok N => decide (N.pis.map (fun e => (e.g, e.attr)) = [(1, .copy), (2, .owner), (4, .owner)])
    | _ => false) = true := by decide +kernel

example : commGraph 3 (fun p => match p with | 0 => [1, 2] | 1 => [0] | _ => [0]) = .ok ([0, 2, 3, 4, 0, 1], [1, 2, 0, 0]) := by decide +kernel

/-! ## The order of local and global indices matters -/

/-- Process 0 owns both indices, in opposite order by local index. -/
def swPis : Nat → PIS
  | 0 => [⟨0, 1, .owner⟩, ⟨1, 0, .owner⟩]
  | _ => []

def swPart : Nat → List Nat
  | 0 => [0, 1]
  | _ => []

theorem sw_decomp : Decomp 2 swPis (fun p => if p = 0 then 2 else 0) {0, 1} where
  ok p hp := by interval_cases p <;> exact ⟨by decide, by decide⟩
  bounded p hp := by interval_cases p <;> decide
  covered p hp := by interval_cases p <;> decide
  inG p hp := by interval_cases p <;> decide
  owned := by decide
  unique p q hp hq := by interval_cases p <;> interval_cases q <;> decide

/-- **The partition can be permuted** (finding): the vertices are numbered by local index, but the result of the partitioner is read in the
order of the global indices. Here the vertices with numbers 0 and 1 are given to each other's domain. -/
theorem C84_order_matters : Decomp 2 swPis (fun p => if p = 0 then 2 else 0) {0, 1} ∧
    (∃ ν, Numbering 2 swPis {0, 1} ν) ∧ (∃ W, InOrder 2 swPis swPart [0, 1] W) ∧
    ∀ m ν W, DomainMapping 2 2 m → Numbering 2 swPis {0, 1} ν → InOrder 2 swPis swPart m W → ¬ AsNumbered 2 swPis swPart m ν W := by
  refine ⟨sw_decomp, ⟨_, numbering sw_decomp⟩, ⟨fun g => g, fun p hp => by interval_cases p <;> decide⟩, ?_⟩
  intro m ν W hm hν hW hA
  have h0 : (⟨0, 1, .owner⟩ : Idx) ∈ swPis 0 := by decide
  have h1 : (⟨1, 0, .owner⟩ : Idx) ∈ swPis 0 := by decide
  have hlt : ν 1 < ν 0 := hν.order 0 (by omega) _ h1 _ h0 rfl rfl (by decide)
  have hb0 := hν.block 0 (by omega) _ h0 rfl
  have hown : owners (swPis 0) = 2 := by decide
  rw [Finset.sum_range_zero, Finset.sum_range_one, hown] at hb0
  dsimp only at hb0
  have hν0 : ν 0 = 1 := by omega
  have hν1 : ν 1 = 0 := by omega
  obtain ⟨d, hd, hmd⟩ := hA 0 (by omega) _ h1 rfl
  dsimp only at hd hmd
  rw [hν1, Finset.sum_range_zero] at hd
  have hd0 : d = 0 := by simpa [swPart] using hd.symm
  subst hd0
  have hio := hW 0 (by omega)
  have hio' : [some (W 0), some (W 1)] = [m[0]?, m[1]?] := hio
  have hw1 : some (W 1) = m[1]? := by
    have := congrArg (fun l => l[1]?) hio'
    simpa using this
  rw [← hmd] at hw1
  have hnd := hm.different
  have hl := hm.len
  have hi0 : 0 < m.length := by omega
  have hi1 : 1 < m.length := by omega
  rw [List.getElem?_eq_getElem hi0, List.getElem?_eq_getElem hi1] at hw1
  have := (List.Nodup.getElem_inj_iff hnd).1 (Option.some.inj hw1)
  omega

end Par
end Istl
