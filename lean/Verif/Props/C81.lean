import Verif.Lemmas.Redistribute4
import Verif.Props.C54

/-! # C81 — redistributing a matrix and vectors to a new decomposition -/

namespace Istl
namespace Par
open Amg MatMat

variable {B : Type}

/-- **Matrix**: for every two decompositions of the same indices and whatever the order of all messages, `redistributeMatrix` succeeds
on every process. The new matrix has one row per index of the new index set; in the rows it owns it has exactly the entries that the
old owner of the row has at columns which are known to the new index set and do not have the attribute `overlap` there, with
the same values; the other rows are identity rows. -/
theorem C81_matrix [Zero B] {P : Nat} {old new : Nat → PIS} {osz nsz : Nat → Nat} {G : Finset Nat} {gmax : Nat} {A : Nat → SpMat B}
    (h : Setting P old new osz nsz G gmax A) (one junk : B) (m : SpMat B) (hmn : m.n = 0) (hmm : m.m = 0) {q : Nat} (hq : q < P)
    (o : Orders) (ho : o.Complete P) :
    ∃ N, redistributeMatrix gmax one junk old new A m q o = .ok N ∧ Redistributed P old A one (new q) N :=
  h.redistribute one junk m hmn hmm hq o ho

/-- **Determined**: the result is described completely: two matrices satisfying the description are equal, so the order of the messages
and the indeterminate initial values do not matter. -/
theorem C81_deterministic [Zero B] {P : Nat} {old new : Nat → PIS} {osz nsz : Nat → Nat} {G : Finset Nat} {gmax : Nat}
    {A : Nat → SpMat B} (h : Setting P old new osz nsz G gmax A) (one junk junk' : B) (m m' : SpMat B) (hmn : m.n = 0) (hmm : m.m = 0)
    (hmn' : m'.n = 0) (hmm' : m'.m = 0) {q : Nat} (hq : q < P) (o o' : Orders) (ho : o.Complete P) (ho' : o'.Complete P) :
    ∃ N N', redistributeMatrix gmax one junk old new A m q o = .ok N ∧ redistributeMatrix gmax one junk' old new A m' q o' = .ok N' ∧
      N.n = N'.n ∧ N.m = N'.m ∧ ∀ i, i < N.n → N.row i = N'.row i := by
  obtain ⟨N, e, hN⟩ := h.redistribute one junk m hmn hmm hq o ho
  obtain ⟨N', e', hN'⟩ := h.redistribute one junk' m' hmn' hmm' hq o' ho'
  refine ⟨N, N', e, e', hN.n.trans hN'.n.symm, hN.m.trans hN'.m.symm, ?_⟩
  intro i hi
  have hlen := decomp_length h.dnew hq
  have hown : ∀ e ∈ new q, e.attr = .owner → ∀ f ∈ new q, ∀ b, (f.loc, b) ∈ N.row e.loc ↔ (f.loc, b) ∈ N'.row e.loc := by
    intro e he ha f hf b
    obtain ⟨p, hp, e0, he0, hg, ha0⟩ := h.oldOwner hq he
    rw [hN.owner e he ha p hp e0 he0 hg ha0 f hf b, hN'.owner e he ha p hp e0 he0 hg ha0 f hf b]
  have hmem : ∀ x, x ∈ N.row i ↔ x ∈ N'.row i := by
    rintro ⟨c, b⟩
    obtain ⟨e, he, rfl⟩ := h.dnew.covered q hq i (by rw [← hlen, ← hN.n]; exact hi)
    have cases' : ((∃ f ∈ new q, f.loc = c) ∧ ((c, b) ∈ N.row e.loc ↔ (c, b) ∈ N'.row e.loc)) ∨ ¬ ∃ f ∈ new q, f.loc = c := by
      by_cases hc : ∃ f ∈ new q, f.loc = c
      · left
        refine ⟨hc, ?_⟩
        obtain ⟨f, hf, rfl⟩ := hc
        by_cases ha : e.attr = .owner
        · exact hown e he ha f hf b
        · rw [hN.other e he ha f hf b, hN'.other e he ha f hf b]
          constructor
          · rintro (hh | ⟨h1, ⟨_, b', h2⟩, h3⟩)
            · exact .inl hh
            · exact .inr ⟨h1, ⟨by rw [hN'.n, hlen]; exact h.dnew.bounded q hq f hf, b', (hown f hf h1 e he b').1 h2⟩, h3⟩
          · rintro (hh | ⟨h1, ⟨_, b', h2⟩, h3⟩)
            · exact .inl hh
            · exact .inr ⟨h1, ⟨by rw [hN.n, hlen]; exact h.dnew.bounded q hq f hf, b', (hown f hf h1 e he b').2 h2⟩, h3⟩
      · exact .inr hc
    rcases cases' with ⟨_, hh⟩ | hc
    · exact hh
    · have bad : ∀ M : SpMat B, M.WF → M.n = (new q).length → M.m = (new q).length → (c, b) ∉ M.row e.loc := by
        intro M hW hn hm hx
        have := (hW e.loc (by rw [hn, hlen]; exact h.dnew.bounded q hq e he)).2 _ hx
        rw [hm, hlen] at this
        exact hc (h.dnew.covered q hq c this)
      exact ⟨fun hx => absurd hx (bad N hN.wf hN.n hN.m), fun hx => absurd hx (bad N' hN'.wf hN'.n hN'.m)⟩
  have a1 := (hN.wf i hi).1
  have a2 := (hN'.wf i (by rw [hN'.n, ← hN.n]; exact hi)).1
  have p1 : (N.row i).Pairwise (fun x y => x.1 < y.1) := List.pairwise_map.1 a1
  have p2 : (N'.row i).Pairwise (fun x y => x.1 < y.1) := List.pairwise_map.1 a2
  refine List.Perm.eq_of_pairwise (fun x y _ _ hx hy => absurd (lt_trans hx hy) (lt_irrefl _)) p1 p2 ?_
  refine (List.perm_ext_iff_of_nodup ?_ ?_).2 hmem
  · exact p1.imp fun h hh => by rw [hh] at h; exact lt_irrefl _ h
  · exact p2.imp fun h hh => by rw [hh] at h; exact lt_irrefl _ h

/-- **Operator**: if the local matrices hold the owned rows of a global matrix `M`, no owned row is coupled to an index with the
attribute `overlap`, and the new index sets know all columns of the rows they own, then the redistributed matrices hold the
owned rows of the same matrix `M` on the new decomposition. -/
theorem C81_operator [AddCommGroup B] {P : Nat} {old new : Nat → PIS} {osz nsz : Nat → Nat} {G : Finset Nat} {gmax : Nat}
    {A : Nat → SpMat B} {M : Nat → Nat → B} (h : Setting P old new osz nsz G gmax A)
    (hM : DistMat (· = .owner) P old osz G A M)
    (hov : ∀ p, p < P → ∀ e ∈ old p, e.attr = .owner → ∀ f ∈ old p, f.attr = .overlap → M e.g f.g = 0)
    (hcl : ∀ q, q < P → ∀ e ∈ new q, e.attr = .owner → ∀ g ∈ G, (∀ f ∈ new q, f.g ≠ g) → M e.g g = 0)
    (one junk : B) (m : SpMat B) (hmn : m.n = 0) (hmm : m.m = 0) (o : Nat → Orders) (ho : ∀ q, q < P → (o q).Complete P) :
    ∃ N : Nat → SpMat B, (∀ q, q < P → redistributeMatrix gmax one junk old new A m q (o q) = .ok (N q)) ∧
      DistMat (· = .owner) P new nsz G N M := by
  have key : ∀ q, ∃ N, q < P → redistributeMatrix gmax one junk old new A m q (o q) = .ok N ∧ Redistributed P old A one (new q) N := by
    intro q
    by_cases hq : q < P
    · obtain ⟨N, hN⟩ := h.redistribute one junk m hmn hmm hq (o q) (ho q hq)
      exact ⟨N, fun _ => hN⟩
    · exact ⟨m, fun hh => absurd hh hq⟩
  choose N hN using key
  refine ⟨N, fun q hq => (hN q hq).1, fun q hq => (hN q hq).2.wf, fun q hq => ?_, fun q hq => ?_, ?_, hcl⟩
  · rw [(hN q hq).2.n, decomp_length h.dnew hq]
  · rw [(hN q hq).2.m, decomp_length h.dnew hq]
  · intro q hq e he ha f hf
    have R := (hN q hq).2
    have hlt : e.loc < (N q).n := by rw [R.n, decomp_length h.dnew hq]; exact h.dnew.bounded q hq e he
    obtain ⟨p, hp, e0, he0, hg0, ha0⟩ := h.oldOwner hq he
    have hasc0 := ((h.wf p hp) e0.loc (by rw [h.rows p hp]; exact h.dold.bounded p hp e0 he0)).1
    by_cases hS : ∃ b, Sent (old p) (A p) e0 f b
    · obtain ⟨b, hb⟩ := hS
      have h1 := (R.owner e he ha p hp e0 he0 hg0 ha0 f hf b).2 hb
      obtain ⟨f0, c1, c2, c3, c4⟩ := hb
      show ((N q).row e.loc).val f.loc = _
      rw [Row.val_of_mem (R.wf e.loc hlt).1 h1, ← hg0, ← c2, ← hM.entry p hp e0 he0 ha0 f0 c1]
      exact (Row.val_of_mem hasc0 c4).symm
    · show ((N q).row e.loc).val f.loc = _
      rw [Row.val_of_not_mem fun b hb => hS ⟨b, (R.owner e he ha p hp e0 he0 hg0 ha0 f hf b).1 hb⟩, ← hg0]
      by_cases hk : ∃ f0 ∈ old p, f0.g = f.g
      · obtain ⟨f0, c1, c2⟩ := hk
        by_cases hfo : f0.attr = .overlap
        · rw [← c2]; exact (hov p hp e0 he0 ha0 f0 c1 hfo).symm
        · rw [← c2, ← hM.entry p hp e0 he0 ha0 f0 c1]
          exact (Row.val_of_not_mem fun b hb => hS ⟨b, f0, c1, c2, hfo, hb⟩).symm
      · exact (hM.closed p hp e0 he0 ha0 f.g (h.dnew.inG q hq f hf) fun f0 hf0 hh => hk ⟨f0, hf0, hh⟩).symm

/-- **Symmetric pattern**: if the pattern that is sent is symmetric then the pattern of every new matrix is symmetric: the check made
with `DUNE_ISTL_WITH_CHECKING` does not throw. -/
theorem C81_symmetric [Zero B] {P : Nat} {old new : Nat → PIS} {osz nsz : Nat → Nat} {G : Finset Nat} {gmax : Nat} {A : Nat → SpMat B}
    (h : Setting P old new osz nsz G gmax A)
    (hsym : ∀ p, p < P → ∀ e ∈ old p, e.attr = .owner → ∀ p', p' < P → ∀ f ∈ old p', f.attr = .owner →
      (∃ b, Sent (old p) (A p) e f b) → ∃ b, Sent (old p') (A p') f e b)
    {one : B} {q : Nat} (hq : q < P) {N : SpMat B} (hN : Redistributed P old A one (new q) N) :
    ∀ i j, N.Has i j → N.Has j i := by
  have hlen := decomp_length h.dnew hq
  rintro i j ⟨hi, b, hb⟩
  have hj := (hN.wf i hi).2 _ hb
  dsimp only at hj
  have hjn : j < N.n := by rw [hN.n, ← hN.m]; exact hj
  rw [hN.n, hlen] at hi
  rw [hN.m, hlen] at hj
  obtain ⟨e, he, rfl⟩ := h.dnew.covered q hq i hi
  obtain ⟨f, hf, rfl⟩ := h.dnew.covered q hq j hj
  have hHas : N.Has e.loc f.loc := ⟨by rw [hN.n, hlen]; exact hi, b, hb⟩
  by_cases ha : e.attr = .owner
  · by_cases hfa : f.attr = .owner
    · obtain ⟨p, hp, e0, he0, hg0, ha0⟩ := h.oldOwner hq he
      obtain ⟨p', hp', f0, hf0, hg0', ha0'⟩ := h.oldOwner hq hf
      obtain ⟨x, c1, c2, c3, c4⟩ := (hN.owner e he ha p hp e0 he0 hg0 ha0 f hf b).1 hb
      obtain ⟨b', y, d1, d2, d3, d4⟩ := hsym p hp e0 he0 ha0 p' hp' f0 hf0 ha0' ⟨b, x, c1, c2.trans hg0'.symm, c3, c4⟩
      exact ⟨hjn, b', (hN.owner f hf hfa p' hp' f0 hf0 hg0' ha0' e he b').2 ⟨y, d1, d2.trans hg0, d3, d4⟩⟩
    · exact ⟨hjn, 0, (hN.other f hf hfa e he 0).2 (.inr ⟨ha, hHas, rfl⟩)⟩
  · rcases (hN.other e he ha f hf b).1 hb with ⟨rfl, _⟩ | ⟨_, hh, _⟩
    · exact hHas
    · exact hh

/-- **Couplings to overlap are lost**: an entry of an owned row whose column has the attribute `overlap` on the old owner never
arrives, whatever the new decomposition. -/
theorem C81_overlap_lost [Zero B] {P : Nat} {old new : Nat → PIS} {osz nsz : Nat → Nat} {G : Finset Nat} {gmax : Nat} {A : Nat → SpMat B}
    (h : Setting P old new osz nsz G gmax A) {one : B} {q : Nat} {N : SpMat B} (hN : Redistributed P old A one (new q) N)
    {e : Idx} (he : e ∈ new q) (ha : e.attr = .owner) {p : Nat} (hp : p < P) {e0 : Idx} (he0 : e0 ∈ old p) (hg : e0.g = e.g)
    (ha0 : e0.attr = .owner) {f : Idx} (hf : f ∈ new q) {f0 : Idx} (hf0 : f0 ∈ old p) (hfg : f0.g = f.g) (hfo : f0.attr = .overlap) :
    ¬ N.Has e.loc f.loc := by
  rintro ⟨_, b, hb⟩
  obtain ⟨x, c1, c2, c3, _⟩ := (hN.owner e he ha p hp e0 he0 hg ha0 f hf b).1 hb
  rw [idx_eq_of_g (h.dold.ok p hp) c1 hf0 (c2.trans hfg.symm)] at c3
  exact c3 hfo

/-- **Vectors**: `redistribute` brings the values at the owned indices of the old decomposition to the owned indices of the new one,
whatever the order of the messages, and writes nowhere else. -/
theorem C81_vector {V : Type} [Inhabited V] {P : Nat} {old new : Nat → PIS} {osz nsz : Nat → Nat} {G : Finset Nat}
    (hold : Decomp P old osz G) (hnew : Decomp P new nsz G) (x y : Nat → Nat → V) (X : Nat → V) (hx : ConsistentAtOwner P old x X)
    (o : Nat → List Nat) (ho : ∀ q, q < P → (o q).Perm (List.range P)) :
    ConsistentAtOwner P new (fun q => redistributeOn old new x (y q) q (o q)) X ∧
    ∀ q, q < P → ∀ e ∈ new q, e.attr ≠ .owner → redistributeOn old new x (y q) q (o q) e.loc = y q e.loc := by
  constructor
  · intro q hq e he ha
    obtain ⟨p, hp, e0, he0, hg, ha0⟩ := hold.owned e.g (hnew.inG q hq e he)
    show redistributeOn old new x (y q) q (o q) e.loc = _
    rw [(redistributeOn_spec hold.ok hold.unique x (y q) (hnew.ok q hq) (o q) (ho q hq)).1 p hp e he ha e0 he0 ha0 hg, hx p hp e0 he0 ha0,
      hg]
  · intro q hq e he ha
    refine (redistributeOn_spec hold.ok hold.unique x (y q) (hnew.ok q hq) (o q) (ho q hq)).2 e.loc fun e' he' ha' hl => ha ?_
    rw [← idx_eq_of_loc (hnew.ok q hq) he' he hl]
    exact ha'

theorem backward_eq {V : Type} (old new : Nat → PIS) (dest : Nat → Nat → V) (source : Nat → V) (p : Nat) (order : List Nat) :
    redistributeBackwardOn old new dest source p order = redistributeOn new old dest source p order := by
  have h : ∀ A C : PIS, recvList isOwner isOwner A C = sendList isOwner isOwner A C := by
    intro A C
    unfold recvList sendList
    congr 1
    funext e
    cases lookup C e.g with
    | none => rfl
    | some r => simp only [Bool.and_comm]
  unfold redistributeBackwardOn redistributeOn
  congr 1
  funext d q
  rw [h (new q) (old p), ← h (old p) (new q)]

/-- **Back again**: `redistributeBackward` brings the values at the owned indices of the new decomposition to the owned indices of the
old one and writes nowhere else; so redistributing forth and back keeps the values at the owned indices. -/
theorem C81_backward {V : Type} [Inhabited V] {P : Nat} {old new : Nat → PIS} {osz nsz : Nat → Nat} {G : Finset Nat}
    (hold : Decomp P old osz G) (hnew : Decomp P new nsz G) (x y z : Nat → Nat → V) (o o' : Nat → List Nat)
    (ho : ∀ q, q < P → (o q).Perm (List.range P)) (ho' : ∀ q, q < P → (o' q).Perm (List.range P)) :
    (∀ X, ConsistentAtOwner P new y X → ConsistentAtOwner P old (fun p => redistributeBackwardOn old new y (z p) p (o' p)) X) ∧
    (∀ p, p < P → ∀ e ∈ old p, e.attr ≠ .owner → redistributeBackwardOn old new y (z p) p (o' p) e.loc = z p e.loc) ∧
    ∀ p, p < P → ∀ e ∈ old p, e.attr = .owner →
      redistributeBackwardOn old new (fun q => redistributeOn old new x (y q) q (o q)) (z p) p (o' p) e.loc = x p e.loc := by
  refine ⟨fun X hX => ?_, fun p hp e he ha => ?_, fun p hp e he ha => ?_⟩
  · have := (C81_vector hnew hold y z X hX o' ho').1
    intro p hp e he ha
    show redistributeBackwardOn old new y (z p) p (o' p) e.loc = _
    rw [backward_eq]
    exact this p hp e he ha
  · rw [backward_eq, (redistributeOn_spec hnew.ok hnew.unique y (z p) (hold.ok p hp) (o' p) (ho' p hp)).2]
    intro e' he' ha' hl
    refine ha ?_
    rw [← idx_eq_of_loc (hold.ok p hp) he' he hl]; exact ha'
  · obtain ⟨q, hq, f, hf, hg, hfa⟩ := hnew.owned e.g (hold.inG p hp e he)
    rw [backward_eq,
      (redistributeOn_spec hnew.ok hnew.unique (fun q => redistributeOn old new x (y q) q (o q)) (z p) (hold.ok p hp) (o' p) (ho' p hp)).1
        q hq e he ha f hf hfa hg,
      (redistributeOn_spec hold.ok hold.unique x (y q) (hnew.ok q hq) (o q) (ho q hq)).1 p hp f hf hfa e he ha hg.symm]

/-- **Agglomeration**: if in the new decomposition process 0 owns all indices and the others have none, process 0 gets the whole matrix
(no column having the attribute `overlap`), and the others an empty one. -/
theorem C81_agglomerate [AddCommGroup B] {P : Nat} {old new : Nat → PIS} {osz nsz : Nat → Nat} {G : Finset Nat} {gmax : Nat}
    {A : Nat → SpMat B} {M : Nat → Nat → B} (h : Setting P old new osz nsz G gmax A) (hP : 0 < P)
    (hM : DistMat (· = .owner) P old osz G A M) (hov : ∀ p, p < P → ∀ e ∈ old p, e.attr ≠ .overlap)
    (h0 : ∀ e ∈ new 0, e.attr = .owner) (hrest : ∀ q, q < P → q ≠ 0 → new q = [])
    (one junk : B) (m : SpMat B) (hmn : m.n = 0) (hmm : m.m = 0) (o : Nat → Orders) (ho : ∀ q, q < P → (o q).Complete P) :
    ∃ N : Nat → SpMat B, (∀ q, q < P → redistributeMatrix gmax one junk old new A m q (o q) = .ok (N q)) ∧
      (N 0).n = G.card ∧ (N 0).m = G.card ∧ (∀ e ∈ new 0, ∀ f ∈ new 0, (N 0).entry e.loc f.loc = M e.g f.g) ∧
      (∀ g ∈ G, ∃ e ∈ new 0, e.g = g) ∧ ∀ q, q < P → q ≠ 0 → (N q).n = 0 ∧ (N q).m = 0 := by
  have hall : ∀ g ∈ G, ∃ e ∈ new 0, e.g = g := by
    intro g hg
    obtain ⟨q, hq, e, he, hge, _⟩ := h.dnew.owned g hg
    by_cases hq0 : q = 0
    · subst hq0; exact ⟨e, he, hge⟩
    · rw [hrest q hq hq0] at he; cases he
  have hcard : (new 0).length = G.card := by
    have hnd : ((new 0).map fun e => e.g).Nodup :=
      (List.pairwise_map.2 ((h.dnew.ok 0 hP).sorted)).imp fun hh => ne_of_lt hh
    have : ((new 0).map fun e => e.g).toFinset = G := by
      ext g
      rw [List.mem_toFinset, List.mem_map]
      constructor
      · rintro ⟨e, he, rfl⟩; exact h.dnew.inG 0 hP e he
      · intro hg
        obtain ⟨e, he, rfl⟩ := hall g hg
        exact ⟨e, he, rfl⟩
    rw [← this, List.toFinset_card_of_nodup hnd, List.length_map]
  obtain ⟨N, h1, h2⟩ := C81_operator h hM (fun p hp e _ _ f hf hh => absurd hh (hov p hp f hf)) (fun q hq e he ha g hg hh => by
    by_cases hq0 : q = 0
    · subst hq0
      obtain ⟨f, hf, hfg⟩ := hall g hg
      exact absurd hfg (hh f hf)
    · rw [hrest q hq hq0] at he; cases he) one junk m hmn hmm o ho
  have hsz : ∀ q, q < P → nsz q = (new q).length := fun q hq => (decomp_length h.dnew hq).symm
  refine ⟨N, h1, ?_, ?_, fun e he f hf => h2.entry 0 hP e he (h0 e he) f hf, hall, fun q hq hq0 => ?_⟩
  · rw [h2.rows 0 hP, hsz 0 hP, hcard]
  · rw [h2.cols 0 hP, hsz 0 hP, hcard]
  · rw [h2.rows q hq, h2.cols q hq, hsz q hq, hrest q hq hq0]
    exact ⟨rfl, rfl⟩

/-! ## Non-vacuity: the matrix of the one dimensional Laplacian on four indices, two processes -/

/-- The old decomposition; the attribute of the indices that are not owned is `a`. -/
def rdOld (a : Attr) : Nat → PIS
  | 0 => [⟨0, 0, .owner⟩, ⟨1, 1, .owner⟩, ⟨2, 2, a⟩]
  | 1 => [⟨1, 2, a⟩, ⟨2, 0, .owner⟩, ⟨3, 1, .owner⟩]
  | _ => []

def rdNew : Nat → PIS
  | 0 => [⟨0, 0, .owner⟩, ⟨1, 1, .owner⟩, ⟨2, 2, .owner⟩, ⟨3, 3, .copy⟩]
  | 1 => [⟨2, 1, .overlap⟩, ⟨3, 0, .owner⟩]
  | _ => []

def rdMat : Nat → SpMat ℤ
  | 0 => ⟨3, 3, fun i => match i with | 0 => [(0, 2), (1, -1)] | 1 => [(0, -1), (1, 2), (2, -1)] | _ => [(2, 1)]⟩
  | _ => ⟨3, 3, fun i => match i with | 0 => [(0, 2), (1, -1), (2, -1)] | 1 => [(0, -1), (1, 2)] | _ => [(2, 1)]⟩

def rdNewSize (p : Nat) : Nat := if p = 0 then 4 else 2

theorem rd_old (a : Attr) (ha : a ≠ .owner) : Decomp 2 (rdOld a) (fun _ => 3) {0, 1, 2, 3} where
  ok p hp := by interval_cases p <;> exact ⟨by simp [rdOld], by simp [rdOld]⟩
  bounded p hp := by interval_cases p <;> simp [rdOld]
  covered p hp i hi := by interval_cases p <;> interval_cases i <;> simp [rdOld]
  inG p hp := by interval_cases p <;> simp [rdOld]
  owned g hg := by
    simp only [Finset.mem_insert, Finset.mem_singleton] at hg
    rcases hg with rfl | rfl | rfl | rfl
    · exact ⟨0, by decide, _, by simp [rdOld]; left; rfl, rfl, rfl⟩
    · exact ⟨0, by decide, _, by simp [rdOld]; right; left; rfl, rfl, rfl⟩
    · exact ⟨1, by decide, _, by simp [rdOld]; right; left; rfl, rfl, rfl⟩
    · exact ⟨1, by decide, _, by simp [rdOld]; right; right; rfl, rfl, rfl⟩
  unique p q hp hq := by interval_cases p <;> interval_cases q <;> simp [rdOld, ha]

theorem rd_new : Decomp 2 rdNew rdNewSize {0, 1, 2, 3} where
  ok p hp := by interval_cases p <;> exact ⟨by decide, by decide⟩
  bounded p hp := by interval_cases p <;> decide
  covered p hp := by interval_cases p <;> decide
  inG p hp := by interval_cases p <;> decide
  owned g hg := by
    have h : ∀ g ∈ ({0, 1, 2, 3} : Finset Nat), ∃ p, p < 2 ∧ ∃ e ∈ rdNew p, e.g = g ∧ e.attr = .owner := by decide
    exact h g hg
  unique p q hp hq := by interval_cases p <;> interval_cases q <;> decide

theorem rd_wf : ∀ p, p < 2 → (rdMat p).WF := by
  intro p hp
  interval_cases p <;>
  · intro i hi
    have hi : i < 3 := hi
    interval_cases i <;> simp [rdMat, Row.Asc]

theorem rd_setting (a : Attr) (ha : a ≠ .owner) {new : Nat → PIS} {nsz : Nat → Nat} (hn : Decomp 2 new nsz {0, 1, 2, 3}) :
    Setting 2 (rdOld a) new (fun _ => 3) nsz {0, 1, 2, 3} 1000 rdMat where
  dold := rd_old a ha
  dnew := hn
  wf := rd_wf
  rows p hp := by interval_cases p <;> rfl
  cols p hp := by interval_cases p <;> rfl
  diag p hp e he ho := by
    interval_cases p <;> simp only [rdOld, List.mem_cons, List.not_mem_nil, or_false] at he <;> rcases he with rfl | rfl | rfl <;>
      first
      | exact absurd ho ha
      | exact ⟨by show _ < 3; decide, 2, by simp [rdMat]⟩
  gfree := by decide

theorem rd_dist (a : Attr) (ha : a ≠ .owner) : DistMat (· = .owner) 2 (rdOld a) (fun _ => 3) {0, 1, 2, 3} rdMat demoM where
  wf := rd_wf
  rows p hp := by interval_cases p <;> rfl
  cols p hp := by interval_cases p <;> rfl
  entry p hp e he ho f hf := by
    interval_cases p <;> simp only [rdOld, List.mem_cons, List.not_mem_nil, or_false] at he hf <;> rcases he with rfl | rfl | rfl <;>
      rcases hf with rfl | rfl | rfl <;>
      first
      | exact absurd ho ha
      | (dsimp only; decide)
  closed p hp e he ho h hh := by
    simp only [Finset.mem_insert, Finset.mem_singleton] at hh
    interval_cases p <;> simp only [rdOld, List.mem_cons, List.not_mem_nil, or_false] at he <;> rcases he with rfl | rfl | rfl <;>
      rcases hh with rfl | rfl | rfl | rfl <;>
      first
      | exact absurd ho ha
      | (intro _; decide)
      | (intro hf; exfalso; simp [rdOld] at hf)

def rdOrders : Orders := ⟨[0, 1], [1, 0], [1, 0]⟩

theorem rd_orders : rdOrders.Complete 2 := ⟨by decide, by decide, by decide⟩

/-- All hypotheses of `C81_operator` hold of this matrix with copies. -/
example : ∃ N : Nat → SpMat ℤ, (∀ q, q < 2 → redistributeMatrix 1000 1 99 (rdOld .copy) rdNew rdMat ⟨0, 0, fun _ => []⟩ q rdOrders =
    .ok (N q)) ∧ DistMat (· = .owner) 2 rdNew rdNewSize {0, 1, 2, 3} N demoM :=
  C81_operator (rd_setting .copy (by decide) rd_new) (rd_dist .copy (by decide))
    (fun p hp => by interval_cases p <;> decide) (fun q hq => by interval_cases q <;> decide) 1 99 _ rfl rfl (fun _ => rdOrders)
    (fun _ _ => rd_orders)

/-- The computation. -/
example :
    (redistributeMatrix (1000 : Nat) 1 99 (rdOld .copy) rdNew rdMat ⟨0, 0, fun _ => []⟩ 0 rdOrders >>= fun N =>
      Res.ok ((List.range N.n).map N.row)) =
      .ok [[(0, 2), (1, -1)], [(0, -1), (1, 2), (2, -1)], [(1, -1), (2, 2), (3, -1)], [(2, 0), (3, 1)]] ∧
    (redistributeMatrix (1000 : Nat) 1 99 (rdOld .copy) rdNew rdMat ⟨0, 0, fun _ => []⟩ 1 rdOrders >>= fun N =>
      Res.ok ((List.range N.n).map N.row)) = .ok [[(0, 2), (1, -1)], [(0, 0), (1, 1)]] := by
  decide +kernel

/-- **The global operator can change**: with indices of attribute `overlap` (as the overlapping Schwarz method has them) redistributing
to the same decomposition loses the coupling of the owned row 1 to column 2, although every hypothesis of `C81_operator` but the one
about couplings to `overlap` holds. -/
theorem C81_overlap_changes_operator :
    Setting 2 (rdOld .overlap) (rdOld .overlap) (fun _ => 3) (fun _ => 3) {0, 1, 2, 3} 1000 rdMat ∧
    DistMat (· = .owner) 2 (rdOld .overlap) (fun _ => 3) {0, 1, 2, 3} rdMat demoM ∧
    ∃ N, redistributeMatrix (1000 : Nat) 1 99 (rdOld .overlap) (rdOld .overlap) rdMat ⟨0, 0, fun _ => []⟩ 0 rdOrders = .ok N ∧
      (rdMat 0).entry 1 2 = -1 ∧ N.entry 1 2 = 0 := by
  refine ⟨rd_setting .overlap (by decide) (rd_old .overlap (by decide)), rd_dist .overlap (by decide), ?_⟩
  have h : (redistributeMatrix (1000 : Nat) 1 99 (rdOld .overlap) (rdOld .overlap) rdMat ⟨0, 0, fun _ => []⟩ 0 rdOrders >>= fun N =>
      Res.ok (N.entry 1 2)) = .ok 0 := by decide +kernel
  cases hN : redistributeMatrix (1000 : Nat) 1 99 (rdOld .overlap) (rdOld .overlap) rdMat ⟨0, 0, fun _ => []⟩ 0 rdOrders with
  | ok N =>
    rw [hN] at h
    exact ⟨N, rfl, by decide, Res.ok.inj h⟩
  | throw x => rw [hN] at h; cases h
  | ub => rw [hN] at h; cases h

/-- Vectors: the hypotheses of `C81_vector` and the computation. -/
example : ConsistentAtOwner 2 rdNew (fun q => redistributeOn (rdOld .copy) rdNew (fun p i => if p = 0 then (i : ℤ) else 2 + i) (fun _ => -7) q
      [1, 0]) (fun g => (g : ℤ)) ∧
    (List.range 4).map (redistributeOn (rdOld .copy) rdNew (fun p i => if p = 0 then (i : ℤ) else 2 + i) (fun _ => -7) 0 [1, 0]) =
      [0, 1, 2, -7] :=
  ⟨(C81_vector (rd_old .copy (by decide)) rd_new _ (fun _ _ => -7) (fun g => (g : ℤ)) (fun p hp => by interval_cases p <;> decide)
    (fun _ => [1, 0]) (fun _ _ => by decide)).1, by decide +kernel⟩

end Par
end Istl
