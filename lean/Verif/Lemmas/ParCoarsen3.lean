import Verif.Lemmas.ParCoarsen2

/-! Coarsening on several processes: the global picture. -/

namespace Istl
namespace Amg
open Par

/-- a run of the coarsening of the index sets -/
structure Run (P : Nat) (pis : Nat → PIS) (G : Nat → Graph) (pub : Nat → Nat → Bool) (agg : Nat → Nat → Agg) (s : Nat → CoSt)
    (R : Nat → Nat → List (Idx × Attr)) (order : Nat → List Nat) (C : Nat → PIS) (N : Nat → Nat) : Prop where
  hS : Shared P pis fun p => (G p).n
  loc : ∀ p, p < P → Local (G p) (pis p) (pub p) (agg p) (s p)
  rem : ∀ p q, p < P → q < P → p ≠ q →
    coarseRemote (s p).number (s p).agg (remoteList (pis p) (pis q)) (s p).indices = .ok (R p q)
  ord : ∀ q, q < P → (order q).Perm ((List.range P).filter (· ≠ q))
  syn : ∀ q, q < P → (C q, N q) = sync (s q).indices (s q).number ((order q).map fun p => R p q)

theorem owner_notForeign {A : PIS} (hA : PisOk A) {e : Idx} (he : e ∈ A) (ho : e.attr = .owner) : ¬ Foreign A e.loc := by
  rintro ⟨f, hf, hl, ha⟩
  obtain rfl := List.inj_on_of_nodup_map hA.locs hf he hl
  exact ha ho

theorem numBelow_surj (m : Nat → Agg) (n k : Nat) (h : k < numBelow m n) : ∃ f, f < n ∧ IsFirst m f ∧ numBelow m f = k := by
  induction n with
  | zero => simp [numBelow] at h
  | succ n ih =>
    rw [numBelow_succ] at h
    rcases Nat.lt_or_ge k (numBelow m n) with hk | hk
    · obtain ⟨f, h1, h2⟩ := ih hk
      exact ⟨f, by omega, h2⟩
    · split at h
      · rename_i hF; exact ⟨n, by omega, hF, by omega⟩
      · omega

section local_
variable {G : Graph} {A : PIS} {pub : Nat → Bool} {agg : Nat → Agg} {s : CoSt}

theorem Local.mem_indices {c : Idx} : c ∈ s.indices ↔ ∃ b, (c, b) ∈ s.added := by
  unfold CoSt.indices
  rw [mem_sortG, List.mem_map]
  constructor
  · rintro ⟨x, hx, rfl⟩; exact ⟨x.2, hx⟩
  · rintro ⟨b, hb⟩; exact ⟨_, hb, rfl⟩

/-- the number of the aggregate of an owned index -/
theorem Local.idOf (h : Local G A pub agg s) (hA : PisOk A) (hb : ∀ e ∈ A, e.loc < G.n) {e : Idx} (he : e ∈ A) (ho : e.attr = .owner)
    (hi : agg e.loc ≠ .iso) : ∃ f, f < G.n ∧ IsFirst (ownMap A agg) f ∧ ownMap A agg e.loc = ownMap A agg f ∧
      s.agg e.loc = .id (numBelow (ownMap A agg) f) := by
  have hm : ownMap A agg e.loc = agg e.loc := by unfold ownMap; rw [if_neg (owner_notForeign hA he ho)]
  obtain ⟨f, hle, hF, e'⟩ := exists_first (ownMap A agg) e.loc (by rw [hm]; exact hi)
  have := hb e he
  exact ⟨f, by omega, hF, e', h.ids f _ this hF e'⟩

theorem Local.entry' (h : Local G A pub agg s) (hA : PisOk A) (hb : ∀ e ∈ A, e.loc < G.n) {c : Idx} (hc : c ∈ s.indices) :
    c.attr = .owner ∧ c.loc < s.number ∧ ∃ e ∈ A, e.attr = .owner ∧ agg e.loc ≠ .iso ∧ e.g = c.g ∧ s.agg e.loc = .id c.loc := by
  obtain ⟨b, hb'⟩ := Local.mem_indices.mp hc
  obtain ⟨f, hf, hF, hl, ⟨e, he, hm, hg, ha⟩, -⟩ := h.entry _ hb'
  dsimp only at hl hg ha
  obtain ⟨hnF, hme⟩ := ownMap_ne (agg := agg) (A := A) (v := e.loc) (by rw [hm]; exact hF.1)
  have ho : e.attr = .owner := by
    by_contra hc'
    exact hnF ⟨e, he, rfl, hc'⟩
  refine ⟨by rw [ha, ho], ?_, e, he, ho, ?_, hg.symm, ?_⟩
  · rw [hl, h.number]; exact numBelow_lt _ hF hf
  · rw [← hme, hm]; exact hF.1
  · rw [h.ids f e.loc (hb e he) hF hm, hl]

theorem Local.exists_entry (h : Local G A pub agg s) (hA : PisOk A) (hb : ∀ e ∈ A, e.loc < G.n) {e : Idx} (he : e ∈ A)
    (ho : e.attr = .owner) (hi : agg e.loc ≠ .iso) : ∃ c ∈ s.indices, s.agg e.loc = .id c.loc := by
  obtain ⟨f, hf, hF, hm, hid⟩ := h.idOf hA hb he ho hi
  obtain ⟨x, hx, hxl⟩ := h.there f hf hF ⟨e, he, hm⟩
  exact ⟨x.1, Local.mem_indices.mpr ⟨x.2, hx⟩, by rw [hid, hxl]⟩

theorem Local.same (h : Local G A pub agg s) (hA : PisOk A) (hb : ∀ e ∈ A, e.loc < G.n) {e f : Idx} (he : e ∈ A)
    (ho : e.attr = .owner) (hf : f ∈ A) (hfo : f.attr = .owner) (hi : agg e.loc ≠ .iso) :
    s.agg e.loc = s.agg f.loc ↔ agg e.loc = agg f.loc := by
  obtain ⟨i, hin, hFi, hmi, hidi⟩ := h.idOf hA hb he ho hi
  have hme : ownMap A agg e.loc = agg e.loc := by unfold ownMap; rw [if_neg (owner_notForeign hA he ho)]
  have hmf : ownMap A agg f.loc = agg f.loc := by unfold ownMap; rw [if_neg (owner_notForeign hA hf hfo)]
  by_cases hif : agg f.loc = .iso
  · rw [h.iso _ (owner_notForeign hA hf hfo) hif, hidi, hif]
    constructor
    · intro hc; cases hc
    · intro hc; exact absurd hc hi
  · obtain ⟨j, hjn, hFj, hmj, hidj⟩ := h.idOf hA hb hf hfo hif
    rw [hidi, hidj]
    constructor
    · intro hc
      injection hc with hc
      have : i = j := by
        rcases Nat.lt_trichotomy i j with hl | hl | hl
        · have := numBelow_lt _ hFi hl; omega
        · exact hl
        · have := numBelow_lt _ hFj hl; omega
      rw [← hme, ← hmf, hmi, hmj, this]
    · intro hc
      have : i = j := first_unique hFi hFj (by rw [← hmi, ← hmj, hme, hmf, hc])
      rw [this]

theorem Local.isoIff (h : Local G A pub agg s) (hA : PisOk A) (hb : ∀ e ∈ A, e.loc < G.n) {e : Idx} (he : e ∈ A) (ho : e.attr = .owner) :
    s.agg e.loc = .iso ↔ agg e.loc = .iso := by
  constructor
  · intro hs
    by_contra hi
    obtain ⟨f, -, -, -, hid⟩ := h.idOf hA hb he ho hi
    rw [hid] at hs; cases hs
  · exact h.iso _ (owner_notForeign hA he ho)

theorem Local.pisOk (h : Local G A pub agg s) (hA : PisOk A) (hb : ∀ e ∈ A, e.loc < G.n) : PisOk s.indices := by
  unfold CoSt.indices
  have hloc : ((s.added.map Prod.fst).map fun e => e.loc).Nodup := by
    rw [List.map_map]; exact h.locs
  refine sortG_ok ?_ hloc
  have hnd : (s.added.map Prod.fst).Nodup := List.Nodup.of_map _ hloc
  rw [List.nodup_map_iff_inj_on hnd]
  intro c hc c' hc' hg
  have h1 : c ∈ s.indices := by unfold CoSt.indices; exact mem_sortG.mpr hc
  have h2 : c' ∈ s.indices := by unfold CoSt.indices; exact mem_sortG.mpr hc'
  obtain ⟨-, -, e, he, -, -, hge, hid⟩ := h.entry' hA hb h1
  obtain ⟨-, -, e', he', -, -, hge', hid'⟩ := h.entry' hA hb h2
  have hee : e = e' := by
    have h3 := (lookup_iff hA e.g e).mpr ⟨he, rfl⟩
    have h4 := (lookup_iff hA e.g e').mpr ⟨he', by rw [hge', hge, hg]⟩
    rw [h3] at h4
    exact Option.some.inj h4
  subst hee
  rw [hid] at hid'
  injection hid' with hid'
  exact List.inj_on_of_nodup_map hloc hc hc' hid'

end local_

section run
variable {P : Nat} {pis : Nat → PIS} {G : Nat → Graph} {pub : Nat → Nat → Bool} {agg : Nat → Nat → Agg} {s : Nat → CoSt}
  {R : Nat → Nat → List (Idx × Attr)} {order : Nat → List Nat} {C : Nat → PIS} {N : Nat → Nat}

open Classical in
/-- the coarse index of a fine index, read off at its owner -/
noncomputable def coarseOf (P : Nat) (pis : Nat → PIS) (s : Nat → CoSt) (g : Nat) : Option Nat :=
  if h : ∃ x : Nat × Idx, x.1 < P ∧ x.2 ∈ pis x.1 ∧ x.2.g = g ∧ x.2.attr = .owner then
    match (s h.choose.1).agg h.choose.2.loc with
    | .id a => (pairOf (s h.choose.1).indices a).map fun c => c.g
    | _ => none
  else none

theorem entry_unique {A : PIS} (hA : PisOk A) {e f : Idx} (he : e ∈ A) (hf : f ∈ A) (h : e.g = f.g) : e = f := by
  have h3 := (lookup_iff hA e.g e).mpr ⟨he, rfl⟩
  have h4 := (lookup_iff hA e.g f).mpr ⟨hf, h.symm⟩
  rw [h3] at h4
  exact Option.some.inj h4

theorem coarseOf_owned (hS : Shared P pis fun p => (G p).n) {p : Nat} (hp : p < P) {e : Idx} (he : e ∈ pis p) (ho : e.attr = .owner) :
    coarseOf P pis s e.g = match (s p).agg e.loc with
      | .id a => (pairOf (s p).indices a).map fun c => c.g
      | _ => none := by
  have hx : ∃ x : Nat × Idx, x.1 < P ∧ x.2 ∈ pis x.1 ∧ x.2.g = e.g ∧ x.2.attr = .owner := ⟨(p, e), hp, he, rfl, ho⟩
  unfold coarseOf
  rw [dif_pos hx]
  obtain ⟨h1, h2, h3, h4⟩ := hx.choose_spec
  have hpq : hx.choose.1 = p := hS.unique _ _ h1 hp _ h2 _ he h4 ho h3
  rw [hpq] at h2
  have hee : hx.choose.2 = e := entry_unique (hS.ok p hp) h2 he h3
  rw [hpq, hee]

namespace Run
variable (r : Run P pis G pub agg s R order C N)
include r

theorem ok0 {p : Nat} (hp : p < P) : PisOk (s p).indices := (r.loc p hp).pisOk (r.hS.ok p hp) (r.hS.bounded p hp)

/-- an owned index that is not isolated -/
theorem ownedF {p : Nat} (hp : p < P) {e : Idx} (he : e ∈ pis p) (ho : e.attr = .owner) (hi : agg p e.loc ≠ .iso) :
    ∃ c ∈ (s p).indices, (s p).agg e.loc = .id c.loc ∧ coarseOf P pis s e.g = some c.g := by
  obtain ⟨c, hc, hid⟩ := (r.loc p hp).exists_entry (r.hS.ok p hp) (r.hS.bounded p hp) he ho hi
  refine ⟨c, hc, hid, ?_⟩
  rw [coarseOf_owned r.hS hp he ho, hid]
  dsimp only
  rw [(pairOf_some (r.ok0 hp)).mpr ⟨hc, rfl⟩]
  rfl

theorem isoF {p : Nat} (hp : p < P) {e : Idx} (he : e ∈ pis p) (ho : e.attr = .owner) :
    coarseOf P pis s e.g = none ↔ agg p e.loc = .iso := by
  constructor
  · intro h
    by_contra hi
    obtain ⟨c, -, -, hF⟩ := r.ownedF hp he ho hi
    rw [hF] at h; cases h
  · intro h
    rw [coarseOf_owned r.hS hp he ho, ((r.loc p hp).isoIff (r.hS.ok p hp) (r.hS.bounded p hp) he ho).mpr h]

/-- the fine index that gave the aggregate its global index -/
theorem entryF {p : Nat} (hp : p < P) {c : Idx} (hc : c ∈ (s p).indices) :
    c.attr = .owner ∧ ∃ e ∈ pis p, e.attr = .owner ∧ e.g = c.g ∧ coarseOf P pis s e.g = some c.g := by
  obtain ⟨h1, -, e, he, ho, hi, hg, hid⟩ := (r.loc p hp).entry' (r.hS.ok p hp) (r.hS.bounded p hp) hc
  refine ⟨h1, e, he, ho, hg, ?_⟩
  rw [coarseOf_owned r.hS hp he ho, hid]
  dsimp only
  rw [(pairOf_some (r.ok0 hp)).mpr ⟨hc, rfl⟩]
  rfl

theorem unique0 {p q : Nat} (hp : p < P) (hq : q < P) {c d : Idx} (hc : c ∈ (s p).indices) (hd : d ∈ (s q).indices) (hg : c.g = d.g) :
    p = q := by
  obtain ⟨-, e, he, ho, hge, -⟩ := r.entryF hp hc
  obtain ⟨-, f, hf, hfo, hgf, -⟩ := r.entryF hq hd
  exact r.hS.unique p q hp hq e he f hf ho hfo (by rw [hge, hgf, hg])

theorem remHyp {p : Nat} (hp : p < P) (q : Nat) (hq : q < P) :
    (∀ x ∈ remoteList (pis p) (pis q), x.1.attr = .owner → (s p).agg x.1.loc ≠ .iso →
      ∃ a, a < (s p).number ∧ (s p).agg x.1.loc = .id a) ∧ ∀ c ∈ (s p).indices, c.loc < (s p).number := by
  refine ⟨?_, fun c hc => ((r.loc p hp).entry' (r.hS.ok p hp) (r.hS.bounded p hp) hc).2.1⟩
  intro x hx ho hi
  have hxp := ((mem_remoteList (r.hS.ok q hq)).mp hx).1
  have hi' : agg p x.1.loc ≠ .iso := fun h => hi (((r.loc p hp).isoIff (r.hS.ok p hp) (r.hS.bounded p hp) hxp ho).mpr h)
  obtain ⟨c, hc, hid⟩ := (r.loc p hp).exists_entry (r.hS.ok p hp) (r.hS.bounded p hp) hxp ho hi'
  exact ⟨c.loc, ((r.loc p hp).entry' (r.hS.ok p hp) (r.hS.bounded p hp) hc).2.1, hid⟩

/-- the list held for another process -/
theorem remF {p q : Nat} (hp : p < P) (hq : q < P) (hpq : p ≠ q) :
    (∀ m ∈ R p q, m.1 ∈ (s p).indices ∧
      (∃ e ∈ pis q, e.attr ≠ .owner ∧ e.attr = m.2 ∧ coarseOf P pis s e.g = some m.1.g) ∧
      (m.2 = .copy ↔ ∃ e ∈ pis q, coarseOf P pis s e.g = some m.1.g ∧ e.attr = .copy)) ∧
    (∀ e ∈ pis q, ∀ f ∈ pis p, f.g = e.g → f.attr = .owner → ∀ c ∈ (s p).indices, (s p).agg f.loc = .id c.loc → ∃ t, (c, t) ∈ R p q) := by
  obtain ⟨hR, hC⟩ := r.remHyp hp q hq
  obtain ⟨l, e1, h1, h2⟩ := coarseRemote_spec _ _ _ _ hR hC
  rw [r.rem p q hp hq hpq] at e1
  obtain rfl : R p q = l := by injection e1
  have hA := r.hS.ok p hp
  have hcnt : ∀ c ∈ (s p).indices, ∀ x ∈ remoteList (pis p) (pis q), Counts (s p).agg c.loc x →
      ∃ e ∈ pis q, e.attr ≠ .owner ∧ e.attr = x.2 ∧ coarseOf P pis s e.g = some c.g := by
    intro c hc x hx hcx
    obtain ⟨hxp, e, he, hg, ha⟩ := (mem_remoteList (r.hS.ok q hq)).mp hx
    have heo : e.attr ≠ .owner := fun hc' => hpq (r.hS.unique p q hp hq _ hxp e he hcx.1 hc' hg.symm)
    refine ⟨e, he, heo, ha, ?_⟩
    rw [hg, coarseOf_owned r.hS hp hxp hcx.1, hcx.2]
    dsimp only
    rw [(pairOf_some (r.ok0 hp)).mpr ⟨hc, rfl⟩]
    rfl
  refine ⟨?_, ?_⟩
  · intro m hm
    obtain ⟨hm1, ⟨x, hx, hcx, hxt⟩, hcp⟩ := h1 m hm
    refine ⟨hm1, ?_, ?_⟩
    · obtain ⟨e, he, h3, h4, h5⟩ := hcnt m.1 hm1 x hx hcx
      exact ⟨e, he, h3, h4.trans hxt, h5⟩
    · rw [hcp]
      constructor
      · rintro ⟨y, hy, hcy, hyt⟩
        obtain ⟨e, he, h3, h4, h5⟩ := hcnt m.1 hm1 y hy hcy
        exact ⟨e, he, h5, h4.trans hyt⟩
      · rintro ⟨e, he, hFe, hec⟩
        obtain ⟨p', hp', f, hf, hfg, hfo⟩ := r.hS.owned q hq e he
        have hi : agg p' f.loc ≠ .iso := by
          intro hc
          have := (r.isoF hp' hf hfo).mpr hc
          rw [hfg, hFe] at this; cases this
        obtain ⟨c, hc, hid, hFc⟩ := r.ownedF hp' hf hfo hi
        rw [hfg, hFe] at hFc
        have hg : m.1.g = c.g := Option.some.inj hFc
        have hpp : p = p' := r.unique0 hp hp' hm1 hc hg
        subst hpp
        have hcm : m.1 = c := entry_unique (r.ok0 hp) hm1 hc hg
        refine ⟨(f, e.attr), (mem_remoteList (r.hS.ok q hq)).mpr ⟨hf, e, he, hfg.symm, rfl⟩, ⟨hfo, ?_⟩, hec⟩
        rw [hcm]; exact hid
  · intro e he f hf hg hfo c hc hid
    exact h2 c hc ⟨(f, e.attr), (mem_remoteList (r.hS.ok q hq)).mpr ⟨hf, e, he, hg.symm, rfl⟩, hfo, hid⟩

theorem syncF {q : Nat} (hq : q < P) : ∃ st : PIS × Nat, C q = sortG st.1 ∧ N q = st.2 ∧
    SInv (s q).indices (s q).number ((order q).map fun p => R p q).flatten st := by
  have h := r.syn q hq
  unfold sync at h
  have h0 : SInv (s q).indices (s q).number [] ((s q).indices, (s q).number) := by
    have hok := r.ok0 hq
    refine ⟨?_, hok.locs, (r.remHyp hq q hq).2, le_refl _, fun e he => he, fun e he => Or.inl he, by simp, ?_⟩
    · have := hok.sorted.imp (S := fun a b : Idx => a.g ≠ b.g) fun h => Nat.ne_of_lt h
      rw [List.Nodup, List.pairwise_map]
      exact this
    · intro l h1 h2
      dsimp only at h2
      omega
  have h1 := SInv.steps ((order q).map fun p => R p q).flatten h0
  rw [List.nil_append] at h1
  refine ⟨_, ?_, ?_, h1⟩
  · exact congrArg Prod.fst h
  · exact congrArg Prod.snd h

theorem memC {q : Nat} (hq : q < P) {c : Idx} (hc : c ∈ C q) : c ∈ (s q).indices ∨
    ((∀ d ∈ (s q).indices, d.g ≠ c.g) ∧ ∃ p, p < P ∧ p ≠ q ∧ ∃ m ∈ R p q, m.1.g = c.g ∧ m.2 = c.attr) := by
  obtain ⟨st, h1, h2, h⟩ := r.syncF hq
  rw [h1, mem_sortG] at hc
  rcases h.new c hc with h3 | ⟨-, h4, m, hm, h5⟩
  · exact Or.inl h3
  · obtain ⟨l, hl, hml⟩ := List.mem_flatten.mp hm
    obtain ⟨p, hp, rfl⟩ := List.mem_map.mp hl
    have := (r.ord q hq).mem_iff.mp hp
    rw [List.mem_filter, List.mem_range] at this
    exact Or.inr ⟨h4, p, this.1, by simpa using this.2, m, hml, h5⟩

theorem getC {p q : Nat} (hp : p < P) (hq : q < P) (hpq : p ≠ q) {m : Idx × Attr} (hm : m ∈ R p q) : ∃ c ∈ C q, c.g = m.1.g := by
  obtain ⟨st, h1, h2, h⟩ := r.syncF hq
  obtain ⟨c, hc, hg⟩ := h.got m (List.mem_flatten.mpr ⟨R p q, List.mem_map.mpr ⟨p, (r.ord q hq).mem_iff.mpr (by
    rw [List.mem_filter, List.mem_range]; exact ⟨hp, by simpa using hpq⟩), rfl⟩, hm⟩)
  exact ⟨c, by rw [h1, mem_sortG]; exact hc, hg⟩

theorem sub0 {q : Nat} (hq : q < P) {c : Idx} (hc : c ∈ (s q).indices) : c ∈ C q := by
  obtain ⟨st, h1, h2, h⟩ := r.syncF hq
  rw [h1, mem_sortG]
  exact h.old c hc

theorem okC {q : Nat} (hq : q < P) : PisOk (C q) := by
  obtain ⟨st, h1, h2, h⟩ := r.syncF hq
  rw [h1]
  exact sortG_ok h.gs h.locs

/-- an entry of the coarse index set with the owner's entry -/
theorem ownerC {q : Nat} (hq : q < P) {c : Idx} (hc : c ∈ C q) : ∃ p, p < P ∧ ∃ d ∈ (s p).indices, d.g = c.g ∧
    (c.attr = .owner ↔ p = q) := by
  rcases r.memC hq hc with h | ⟨h4, p, hp, hpq, m, hm, hg, ha⟩
  · exact ⟨q, hq, c, h, rfl, by simp [(r.entryF hq h).1]⟩
  · obtain ⟨h1, ⟨e, he, heo, hea, -⟩, -⟩ := (r.remF hp hq hpq).1 m hm
    refine ⟨p, hp, m.1, h1, hg, ?_⟩
    rw [← ha, ← hea]
    exact ⟨fun h => absurd h heo, fun h => absurd h hpq⟩

theorem coarsening : Coarsening P pis (fun p => (G p).n) agg C N (coarseOf P pis s) := by
  refine ⟨⟨fun p hp => r.okC hp, ?_, ?_, ?_⟩, ?_, fun p hp e he ho => r.isoF hp he ho, ?_, ?_, ?_, ?_, ?_⟩
  · -- bounded
    intro q hq c hc
    obtain ⟨st, h1, h2, h⟩ := r.syncF hq
    rw [h1, mem_sortG] at hc
    rw [h2]
    exact h.bound c hc
  · -- owned
    intro q hq c hc
    obtain ⟨p, hp, d, hd, hg, -⟩ := r.ownerC hq hc
    exact ⟨p, hp, d, r.sub0 hp hd, hg, (r.entryF hp hd).1⟩
  · -- unique
    intro p q hp hq c hc d hd hco hdo hg
    obtain ⟨p', hp', c', hc', hg', h1⟩ := r.ownerC hp hc
    obtain ⟨q', hq', d', hd', hg'', h2⟩ := r.ownerC hq hd
    rw [← h1.mp hco, ← h2.mp hdo]
    exact r.unique0 hp' hq' hc' hd' (by rw [hg', hg'', hg])
  · -- aggregate
    intro p hp e he f hf ho hfo hi
    obtain ⟨c, hc, hid, hFc⟩ := r.ownedF hp he ho hi
    rw [← (r.loc p hp).same (r.hS.ok p hp) (r.hS.bounded p hp) he ho hf hfo hi]
    constructor
    · intro hFF
      by_cases hif : agg p f.loc = .iso
      · rw [(r.isoF hp hf hfo).mpr hif, hFc] at hFF; cases hFF
      · obtain ⟨d, hd, hidd, hFd⟩ := r.ownedF hp hf hfo hif
        rw [hFc, hFd] at hFF
        rw [hid, hidd, entry_unique (r.ok0 hp) hc hd (Option.some.inj hFF)]
    · intro hss
      rw [coarseOf_owned r.hS hp he ho, coarseOf_owned r.hS hp hf hfo, hss]
  · -- known
    intro q hq e he i hFi
    obtain ⟨p, hp, f, hf, hfg, hfo⟩ := r.hS.owned q hq e he
    have hi : agg p f.loc ≠ .iso := by
      intro hc
      have := (r.isoF hp hf hfo).mpr hc
      rw [hfg, hFi] at this; cases this
    obtain ⟨c, hc, hid, hFc⟩ := r.ownedF hp hf hfo hi
    rw [hfg, hFi] at hFc
    have hci : c.g = i := (Option.some.inj hFc).symm
    have hoe : e.attr = .owner ↔ p = q := by
      constructor
      · intro ho; exact r.hS.unique p q hp hq f hf e he hfo ho hfg
      · rintro rfl
        rw [← entry_unique (r.hS.ok p hp) hf he hfg]; exact hfo
    have hex : ∃ d ∈ C q, d.g = c.g := by
      by_cases hpq : p = q
      · subst hpq; exact ⟨c, r.sub0 hp hc, rfl⟩
      · obtain ⟨t, ht⟩ := (r.remF hp hq hpq).2 e he f hf hfg hfo c hc hid
        exact r.getC hp hq hpq ht
    obtain ⟨d, hd, hdg⟩ := hex
    refine ⟨d, hd, hdg.trans hci, ?_⟩
    obtain ⟨p', hp', d', hd', hg', h1⟩ := r.ownerC hq hd
    rw [h1, hoe, r.unique0 hp' hp hd' hc (by rw [hg', hdg])]
  · -- onto
    intro q hq c hc
    rcases r.memC hq hc with h | ⟨h4, p, hp, hpq, m, hm, hg, ha⟩
    · obtain ⟨ho, e, he, heo, -, hF⟩ := r.entryF hq h
      exact ⟨e, he, hF, by simp [ho, heo]⟩
    · obtain ⟨h1, ⟨e, he, heo, hea, hF⟩, -⟩ := (r.remF hp hq hpq).1 m hm
      exact ⟨e, he, by rw [hF, hg], by rw [← ha, ← hea]⟩
  · -- copies
    intro q hq c hc
    rcases r.memC hq hc with h | ⟨h4, p, hp, hpq, m, hm, hg, ha⟩
    · have ho := (r.entryF hq h).1
      rw [ho]
      constructor
      · intro hc; cases hc
      · rintro ⟨e, he, hFe, hec⟩
        obtain ⟨p, hp, f, hf, hfg, hfo⟩ := r.hS.owned q hq e he
        have hi : agg p f.loc ≠ .iso := by
          intro hc
          have := (r.isoF hp hf hfo).mpr hc
          rw [hfg, hFe] at this; cases this
        obtain ⟨d, hd, hid, hFd⟩ := r.ownedF hp hf hfo hi
        rw [hfg, hFe] at hFd
        have := r.unique0 hp hq hd h (Option.some.inj hFd).symm
        subst this
        rw [← entry_unique (r.hS.ok p hp) hf he hfg, hfo] at hec
        cases hec
    · obtain ⟨-, -, h3⟩ := (r.remF hp hq hpq).1 m hm
      rw [← ha, ← hg]; exact h3
  · -- covered
    intro hcov q hq l hl
    obtain ⟨st, h1, h2, h⟩ := r.syncF hq
    rw [h2] at hl
    rcases Nat.lt_or_ge l (s q).number with h3 | h3
    · rw [(r.loc q hq).number] at h3
      obtain ⟨f, hf, hF, hk⟩ := numBelow_surj _ _ _ h3
      obtain ⟨e, he, hel⟩ := hcov q hq f hf
      obtain ⟨x, hx, hxl⟩ := (r.loc q hq).there f hf hF ⟨e, he, by rw [hel]⟩
      exact ⟨x.1, r.sub0 hq (Local.mem_indices.mpr ⟨x.2, hx⟩), by rw [hxl, hk]⟩
    · obtain ⟨e, he, hel⟩ := h.full l h3 hl
      exact ⟨e, by rw [h1, mem_sortG]; exact he, hel⟩
  · -- member
    intro q hq c hc
    obtain ⟨p, hp, d, hd, hg, -⟩ := r.ownerC hq hc
    obtain ⟨-, e, he, heo, heg, hF⟩ := r.entryF hp hd
    rw [← hg, ← heg, hF, heg]

end Run
end run

end Amg
end Istl
