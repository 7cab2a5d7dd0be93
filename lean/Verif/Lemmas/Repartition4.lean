import Verif.Lemmas.Repartition3
import Verif.Lemmas.ParCoarsen4
import Verif.Lemmas.Redistribute

/-! # Lemmas: interfaces and neighbours after `buildCommunication` -/

namespace Istl
namespace Par
open Amg MatMat

namespace Assign
variable {P : Nat} {old : Nat → PIS} {osz : Nat → Nat} {G : Finset Nat} {gr : Nat → Graph} {parts : Nat → List Nat} {W : Nat → Nat}

/-! ## Interfaces -/

theorem sendIface_ok (h : Assign P old osz G gr parts W) {p : Nat} (hp : p < P) (q : Nat) :
    sendIface (old p) (parts p) q = .ok ((going W q (old p)).map fun e => e.loc) := by
  unfold sendIface
  have key : ∀ (L : PIS) (l : List Nat), (∀ e ∈ L, e ∈ old p) → L.foldlM (fun l e => if e.attr = .owner then (do
      let pe ← rd (parts p) e.loc
      .ok (if pe = q then l ++ [e.loc] else l))
      else .ok l) l = Res.ok (l ++ (going W q L).map fun e => e.loc) := by
    intro L
    induction L with
    | nil => intro l _; simp [going, pure, Pure.pure]
    | cons e L ih =>
      intro l hL
      have hrd : rd (parts p) e.loc = .ok (W e.g) := rd_ok.2 (h.val p hp e (hL e (List.mem_cons_self ..)))
      have ih' := fun l => ih l fun e he => hL e (List.mem_cons_of_mem _ he)
      rw [List.foldlM_cons]
      unfold going at ih' ⊢
      by_cases ha : e.attr = .owner
      · rw [if_pos ha, hrd, Res.ok_bind, Res.ok_bind, ih']
        by_cases hw : W e.g = q
        · rw [if_pos hw, List.filter_cons, if_pos (by simp [ha, hw])]
          simp
        · rw [if_neg hw, List.filter_cons, if_neg (by simp [hw])]
      · rw [if_neg ha, Res.ok_bind, ih', List.filter_cons, if_neg (by simp [ha])]
  have := key (old p) [] fun _ he => he
  rw [List.nil_append] at this
  exact this

theorem sendIface_eq (h : Assign P old osz G gr parts W) {p q : Nat} (hp : p < P) {new : PIS} (hn : NewSet P old G gr W q new) :
    sendIface (old p) (parts p) q = .ok (sendList isOwner isOwner (old p) new) := by
  rw [h.sendIface_ok hp, sendList_eq]
  congr 2
  unfold going sendIdx
  refine List.filter_congr fun e he => ?_
  have hG := h.dec.inG p hp e he
  cases hl : lookup new e.g with
  | none =>
    have hno := (lookup_none hn.ok e.g).1 hl
    have : W e.g ≠ q := by
      intro hw
      obtain ⟨r, hr, hrg, _⟩ := (hn.owner e.g).2 ⟨hG, hw⟩
      exact hno r hr hrg
    simp [this]
  | some r =>
    obtain ⟨hr, hrg⟩ := (lookup_iff hn.ok e.g r).1 hl
    have hro : r.attr = .owner ↔ W e.g = q := by
      constructor
      · intro ha
        exact ((hn.owner e.g).1 ⟨r, hr, hrg, ha⟩).2
      · intro hw
        obtain ⟨r', hr', hrg', ha'⟩ := (hn.owner e.g).2 ⟨hG, hw⟩
        have := (lookup_iff hn.ok e.g r').2 ⟨hr', hrg'⟩
        rw [hl] at this
        obtain rfl := Option.some.inj this
        exact ha'
    dsimp only
    rw [Bool.eq_iff_iff, decide_eq_true_eq, Bool.and_eq_true, isOwner_iff, isOwner_iff, hro]

theorem recvIface_asc (L : List (Nat × Nat)) (p : Nat) : (recvIface L p).Pairwise (· < ·) := by
  unfold recvIface
  rw [List.pairwise_map]
  refine List.Pairwise.sublist List.filter_sublist ?_
  have : (L.zipIdx.map Prod.snd).Pairwise (· < ·) := by
    rw [List.zipIdx_map_snd]
    exact List.pairwise_lt_range'
  exact List.pairwise_map.1 this

theorem mem_recvIface (L : List (Nat × Nat)) (p i : Nat) : i ∈ recvIface L p ↔ ∃ g, L[i]? = some (g, p) := by
  unfold recvIface
  rw [List.mem_map]
  constructor
  · rintro ⟨⟨⟨g, p'⟩, i'⟩, hx, rfl⟩
    obtain ⟨h1, h2⟩ := List.mem_filter.1 hx
    simp only [decide_eq_true_eq] at h2
    subst h2
    exact ⟨g, List.mk_mem_zipIdx_iff_getElem?.1 h1⟩
  · rintro ⟨g, hg⟩
    exact ⟨((g, p), i), List.mem_filter.2 ⟨List.mk_mem_zipIdx_iff_getElem?.2 hg, by simp⟩, rfl⟩

theorem recvIface_eq (h : Assign P old osz G gr parts W) {p q : Nat} (hp : p < P) {m : Mine}
    (c : Collected P old gr W q (m.owner.insertionSort pairLe) m) :
    recvIface (m.owner.insertionSort pairLe) p = recvList isOwner isOwner (newIndices m) (old p) := by
  have hn := h.newSet c
  obtain ⟨_, _, h3⟩ := mem_new c
  refine asc_ext (recvIface_asc _ _) ?_ fun i => ?_
  · rw [recvList_eq, List.pairwise_map]
    have hs : (recvIdx isOwner isOwner (newIndices m) (old p)).Pairwise fun a b => a.g < b.g := hn.ok.sorted.sublist List.filter_sublist
    refine hs.imp_of_mem ?_
    intro a b ha hb hab
    obtain ⟨ha1, ha2, _⟩ := (mem_recvIdx (h.dec.ok p hp)).1 ha
    obtain ⟨hb1, hb2, _⟩ := (mem_recvIdx (h.dec.ok p hp)).1 hb
    exact hn.ascending a ha1 b hb1 ((isOwner_iff.1 ha2).trans (isOwner_iff.1 hb2).symm) hab
  · rw [mem_recvIface, recvList_eq, List.mem_map]
    constructor
    · rintro ⟨g, hg⟩
      obtain ⟨_, e, he, ha, rfl, hw⟩ := (c.mem g p).1 (List.mem_of_getElem? hg)
      exact ⟨⟨e.g, i, .owner⟩, (mem_recvIdx (h.dec.ok p hp)).2 ⟨(h3 _).2 (.inl ⟨rfl, p, hg⟩), rfl, e, he, rfl, isOwner_iff.2 ha⟩, rfl⟩
    · rintro ⟨e, he, rfl⟩
      obtain ⟨h1, h2, r, hr, hrg, hra⟩ := (mem_recvIdx (h.dec.ok p hp)).1 he
      rcases (h3 e).1 h1 with ⟨_, p', hp'⟩ | ⟨hc, _⟩
      · obtain ⟨hlt, r', hr', ha', hrg', _⟩ := (c.mem _ _).1 (List.mem_of_getElem? hp')
        have : p' = p := h.dec.unique p' p hlt hp r' hr' r hr ha' (isOwner_iff.1 hra) (hrg'.trans hrg.symm)
        subst this
        exact ⟨e.g, hp'⟩
      · rw [isOwner_iff.1 h2] at hc; cases hc

/-! ## Participation and ranks -/

theorem takes_part (h : Assign P old osz G gr parts W) (q : Nat) : (∃ p, p < P ∧ q ∈ parts p) ↔ ∃ g ∈ G, W g = q := by
  constructor
  · rintro ⟨p, hp, hq⟩
    obtain ⟨i, hi⟩ := List.mem_iff_getElem?.1 hq
    have hlt := (List.getElem?_eq_some_iff.1 hi).1
    rw [h.len p hp] at hlt
    obtain ⟨e, he, rfl⟩ := h.dec.covered p hp i hlt
    have := h.val p hp e he
    rw [hi] at this
    exact ⟨e.g, h.dec.inG p hp e he, (Option.some.inj this).symm⟩
  · rintro ⟨g, hg, hw⟩
    obtain ⟨p, hp, e, he, hge, _⟩ := h.dec.owned g hg
    refine ⟨p, hp, h.goes hp he ?_⟩
    rw [hge, hw]

open Classical in
theorem existent_ok (h : Assign P old osz G gr parts W) (q : Nat) : existent P parts q = .ok (decide (∃ g ∈ G, W g = q)) := by
  unfold existent
  rw [recvFrom_ok, Res.ok_bind]
  congr 1
  rw [Bool.eq_iff_iff, decide_eq_true_eq, ← h.takes_part q, Bool.not_eq_true', ← Bool.not_eq_true, List.isEmpty_iff,
    ← ne_eq, List.ne_nil_iff_exists_cons]
  constructor
  · rintro ⟨p, l, hl⟩
    have : p ∈ (List.range P).filter fun p => decide (q ∈ parts p) := by rw [hl]; exact List.mem_cons_self ..
    obtain ⟨h1, h2⟩ := List.mem_filter.1 this
    exact ⟨p, List.mem_range.1 h1, by simpa using h2⟩
  · rintro ⟨p, hp, hq⟩
    have hm : p ∈ (List.range P).filter fun p => decide (q ∈ parts p) := List.mem_filter.2 ⟨List.mem_range.2 hp, by simpa using hq⟩
    cases hl : (List.range P).filter fun p => decide (q ∈ parts p) with
    | nil => rw [hl] at hm; cases hm
    | cons a l => exact ⟨a, l, rfl⟩

end Assign

/-- The rank of process `p` in the new communicator: the number of participating processes before it. -/
noncomputable def rankOf (part : Nat → Prop) (p : Nat) : Nat := by
  classical exact ((List.range p).filter fun x => part x).length

open Classical in
theorem rankOf_lt {part : Nat → Prop} {p p' : Nat} (h : part p) (hlt : p < p') : rankOf part p < rankOf part p' := by
  unfold rankOf
  have : List.range p' = List.range p ++ (p :: (List.range (p' - p - 1)).map (p + 1 + ·)) := by
    have h1 : p' = p + (1 + (p' - p - 1)) := by omega
    conv_lhs => rw [h1, List.range_add, List.range_add]
    simp [Function.comp_def, Nat.add_assoc]
  rw [this, List.filter_append, List.length_append, List.filter_cons, if_pos (by simpa using h), List.length_cons]
  omega

namespace Assign
variable {P : Nat} {old : Nat → PIS} {osz : Nat → Nat} {G : Finset Nat} {gr : Nat → Graph} {parts : Nat → List Nat} {W : Nat → Nat}

open Classical in
theorem newRanks_ok (h : Assign P old osz G gr parts W) : newRanks P parts = .ok ((List.range P).map fun p =>
    if ∃ g ∈ G, W g = p then some (rankOf (fun x => ∃ g ∈ G, W g = x) p) else none) := by
  unfold newRanks
  rw [mapM_ok _ _ (fun p => decide (∃ g ∈ G, W g = p)) (fun p _ => h.existent_ok p), Res.ok_bind]
  congr 1
  unfold ranksOf
  rw [List.length_map, List.length_range]
  refine List.map_congr_left fun p hp => ?_
  have hp' := List.mem_range.1 hp
  have e1 : ((List.range P).map fun p => decide (∃ g ∈ G, W g = p))[p]? = some (decide (∃ g ∈ G, W g = p)) := by
    rw [List.getElem?_map, List.getElem?_range hp']; rfl
  rw [e1]
  have e2 : (((List.range P).map fun p => decide (∃ g ∈ G, W g = p)).take p).count true = rankOf (fun x => ∃ g ∈ G, W g = x) p := by
    unfold rankOf
    rw [← List.map_take, List.take_range, Nat.min_eq_left (le_of_lt hp'), List.count_eq_countP, List.countP_map, List.countP_eq_length_filter]
    congr 1
    refine List.filter_congr fun x _ => ?_
    simp
  rw [e2]
  by_cases hx : ∃ g ∈ G, W g = p
  · rw [if_pos hx, if_pos (by simp [hx])]
  · rw [if_neg hx, if_neg (by simp [hx])]

/-- **The result on process `q`.** -/
theorem build (h : Assign P old osz G gr parts W) {q : Nat} {order : List Nat} (ho : order.Perm ((List.range P).filter fun p => q ∈ parts p)) :
    ∃ N, buildCommunication P gr parts old q order = .ok N ∧ NewSet P old G gr W q N.pis ∧
      (∀ p, p < P → N.recv p = recvList isOwner isOwner N.pis (old p)) ∧
      (N.exists' = true ↔ ∃ g ∈ G, W g = q) ∧
      N.procs.Pairwise (· < ·) ∧ (∀ n, n ∈ N.procs ↔ NewNeighbour P old gr W q n) ∧
      N.nbrs = N.procs.map fun n => some (rankOf (fun x => ∃ g ∈ G, W g = x) n) := by
  obtain ⟨m, e, c⟩ := h.collect ho
  have hN : ∀ n, n ∈ m.procs ↔ NewNeighbour P old gr W q n := by
    intro n
    rw [c.memProcs]
    constructor
    · rintro ⟨p, hp, f, ⟨e, he, ha, hw, hf, hl, hc⟩, hn⟩
      exact ⟨p, hp, e, he, ha, hw, f, hf, hl, hc, hn⟩
    · rintro ⟨p, hp, e, he, ha, hw, f, hf, hl, hc, hn⟩
      exact ⟨p, hp, f, ⟨e, he, ha, hw, hf, hl, hc⟩, hn⟩
  have hr : m.procs.mapM (rd ((List.range P).map fun p =>
      open Classical in if ∃ g ∈ G, W g = p then some (rankOf (fun x => ∃ g ∈ G, W g = x) p) else none)) =
      .ok (m.procs.map fun n => some (rankOf (fun x => ∃ g ∈ G, W g = x) n)) := by
    refine mapM_ok _ _ _ fun n hn => ?_
    obtain ⟨p, hp, _, _, _, _, f, hf, _, _, rfl⟩ := (hN n).1 hn
    have hG := h.dec.inG p hp f hf
    rw [rd_ok, List.getElem?_map, List.getElem?_range (h.lt _ hG), Option.map_some, if_pos ⟨f.g, hG, rfl⟩]
  refine ⟨⟨newIndices m, recvIface (m.owner.insertionSort pairLe), m.procs, m.procs.map fun n => some (rankOf (fun x => ∃ g ∈ G, W g = x) n),
    open Classical in decide (∃ g ∈ G, W g = q)⟩, ?_, h.newSet c, fun p hp => h.recvIface_eq hp c, ?_, c.procs, hN, rfl⟩
  · unfold buildCommunication
    rw [h.existent_ok, Res.ok_bind, e, Res.ok_bind, h.newRanks_ok, Res.ok_bind, hr, Res.ok_bind]
  · simp

end Assign
end Par
end Istl
