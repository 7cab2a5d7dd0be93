import Verif.Lemmas.Novlp3

/-! # C55 — the nonoverlapping operator and preconditioner -/

namespace Istl
namespace Par
open Finset
variable {B V K : Type} [AddCommGroup B] [AddCommGroup V] [Ring K] [Module K V]

/-- If every index belongs to the lowest rank holding it, then no pair of indices is counted twice. -/
theorem C55_lowest_rank {P : Nat} {pis : Nat → PIS} (h : LowestRankOwns P pis) : NoCrossOwners P pis :=
  fun g k p q hp hq h1 h2 h3 h4 => Nat.le_antisymm (h g p q hp hq h1 h4) (h k q p hq hp h2 h3)

/-- Each pair held together by some process is added by exactly one process. -/
theorem contrib_unique {P : Nat} {pis : Nat → PIS} {sz : Nat → Nat} {G : Finset Nat} (hD : Decomp P pis sz G) (hN : NoCrossOwners P pis)
    {g h : Nat} (hg : g ∈ G) (hh : h ∈ G) (hex : ∃ p, p < P ∧ Holds pis p g ∧ Holds pis p h) :
    ∃ p, p < P ∧ Contrib P pis p g h ∧ ∀ q, q < P → Contrib P pis q g h → q = p := by
  classical
  obtain ⟨a, ha, oa⟩ := hD.owned g hg
  obtain ⟨b, hb, ob⟩ := hD.owned h hh
  have una : ∀ q, q < P → Owns pis q g → q = a := by
    rintro q hq ⟨e, he, h1, h2⟩
    obtain ⟨f, hf, h3, h4⟩ := oa
    exact hD.unique q a hq ha e he f hf h2 h4 (h1.trans h3.symm)
  have unb : ∀ q, q < P → Owns pis q h → q = b := by
    rintro q hq ⟨e, he, h1, h2⟩
    obtain ⟨f, hf, h3, h4⟩ := ob
    exact hD.unique q b hq hb e he f hf h2 h4 (h1.trans h3.symm)
  have owns_holds : ∀ {q k}, Owns pis q k → Holds pis q k := fun ⟨e, he, h1, h2⟩ => ⟨e, he, h1, by rw [h2]; decide⟩
  by_cases h1 : Holds pis a h
  · refine ⟨a, ha, ⟨owns_holds oa, h1, .inl oa⟩, fun q hq ⟨c1, c2, c3⟩ => ?_⟩
    rcases c3 with c | c | c
    · exact una q hq c
    · exact (hN g h a q ha hq oa c h1 c1).symm
    · by_contra hne
      exact (c a ha (fun h => hne h.symm) (owns_holds oa) h1).1 oa
  · by_cases h2 : Holds pis b g
    · refine ⟨b, hb, ⟨h2, owns_holds ob, .inr (.inl ob)⟩, fun q hq ⟨c1, c2, c3⟩ => ?_⟩
      rcases c3 with c | c | c
      · exact absurd (una q hq c ▸ c2) h1
      · exact unb q hq c
      · by_contra hne
        exact (c b hb (fun h => hne h.symm) h2 (owns_holds ob)).2.1 ob
    · have hno : ∀ q, q < P → Holds pis q g → Holds pis q h → ¬ Owns pis q g ∧ ¬ Owns pis q h := fun q hq k1 k2 =>
        ⟨fun o => h1 (una q hq o ▸ k2), fun o => h2 (unb q hq o ▸ k1)⟩
      let p := Nat.find hex
      obtain ⟨hp, p1, p2⟩ := Nat.find_spec hex
      refine ⟨p, hp, ⟨p1, p2, .inr (.inr fun q hq hne k1 k2 => ⟨(hno q hq k1 k2).1, (hno q hq k1 k2).2, ?_⟩)⟩, fun q hq ⟨c1, c2, c3⟩ => ?_⟩
      · have : p ≤ q := Nat.find_min' hex ⟨hq, k1, k2⟩
        omega
      · have hle : p ≤ q := Nat.find_min' hex ⟨hq, c1, c2⟩
        rcases c3 with c | c | c
        · exact absurd c (hno q hq c1 c2).1
        · exact absurd c (hno q hq c1 c2).2
        · by_contra hne
          have := (c p hp (fun h => hne h.symm) p1 p2).2.2
          omega

open Classical in
/-- Summing what the processes hold gives the global product. -/
theorem contrib_sum {P : Nat} {pis : Nat → PIS} {sz : Nat → Nat} {G : Finset Nat} (hD : Decomp P pis sz G) (hN : NoCrossOwners P pis)
    (β : BlockAct B V V) {A : Nat → SpMat B} {M : Nat → Nat → B} (hA : NonoverlapMat P pis sz G A M) (alpha : K) (X : Nat → V) {g : Nat}
    (hg : g ∈ G) :
    ∑ p ∈ range P, ∑ h ∈ G, (if Contrib P pis p g h then alpha • β.mul (M g h) (X h) else 0) = alpha • globalMul β G M X g := by
  rw [Finset.sum_comm, globalMul, Finset.smul_sum]
  refine Finset.sum_congr rfl fun h hh => ?_
  by_cases hex : ∃ p, p < P ∧ Holds pis p g ∧ Holds pis p h
  · obtain ⟨p, hp, h1, h2⟩ := contrib_unique hD hN hg hh hex
    rw [Finset.sum_eq_single p, if_pos h1]
    · intro q hq hne
      exact if_neg fun h => hne (h2 q (mem_range.1 hq) h)
    · intro h; exact absurd (mem_range.2 hp) h
  · have h0 : M g h = 0 := hA.closed g hg h hh fun p hp h1 h2 => hex ⟨p, hp, h1, h2⟩
    rw [h0, map_zero, AddMonoidHom.zero_apply, smul_zero]
    exact Finset.sum_eq_zero fun q _ => ite_self 0

/-- The communication of local results: at every held index the sum of the values of all processes holding it. -/
theorem comm_sum {P : Nat} {pis : Nat → PIS} {sz : Nat → Nat} {G : Finset Nat} (hD : Decomp P pis sz G) (w : Nat → Nat → V)
    (S : Nat → Nat → V) (hw : ∀ p, p < P → ∀ e ∈ pis p, e.attr ≠ .overlap → w p e.loc = S p e.g)
    (hS : ∀ p, p < P → ∀ g, ¬ Holds pis p g → S p g = 0) {q : Nat} (hq : q < P) (order : List Nat)
    (hord : order.Perm ((List.range P).filter (· ≠ q))) {e : Idx} (he : e ∈ pis q) (ha : e.attr ≠ .overlap) :
    addOwnerCopyToOwnerCopy pis w w q order e.loc = ∑ p ∈ range P, S p e.g := by
  rw [(C36_addOwnerCopy hD.ok w w hq order hord).2.1 e he ha, hw q hq e he ha]
  have hc : ∀ p, p < P → contribution (fun a => decide (a ≠ .overlap)) (pis p) (w p) e.g = S p e.g := by
    intro p hp
    unfold contribution
    cases hl : lookup (pis p) e.g with
    | none =>
      rw [lookup_none (hD.ok p hp)] at hl
      exact (hS p hp _ fun ⟨f, hf, hg, _⟩ => hl f hf hg).symm
    | some f =>
      obtain ⟨hf, hg⟩ := (lookup_iff (hD.ok p hp) _ _).1 hl
      dsimp only
      by_cases hfa : f.attr = .overlap
      · rw [if_neg (by simpa using hfa), hS p hp]
        rw [← hg, holds_iff hD.ok hp hf]
        exact fun h => h hfa
      · rw [if_pos (by simpa using hfa), hw p hp f hf hfa, hg]
  rw [Finset.sum_congr rfl (g := fun p => S p e.g) (fun p hp => hc p (mem_range.1 (mem_filter.1 hp).1)), Finset.filter_ne',
    Finset.add_sum_erase (range P) (fun p => S p e.g) (mem_range.2 hq)]

/-- `NonoverlappingSchwarzOperator::applyscaleadd(alpha,x,y)` on a distributed vector, on objects that have been called any number of
times: every process succeeds, and all of them end up with `y + alpha*M*x` at their owner and copy indices. Overlap (ghost) entries of
`x` are not looked at and those of `y` do not change. -/
theorem C55_applyscaleadd {P : Nat} {pis : Nat → PIS} {sz : Nat → Nat} {G : Finset Nat} (hD : Decomp P pis sz G) (hN : NoCrossOwners P pis)
    (β : BlockAct B V V) {A : Nat → SpMat B} {M : Nat → Nat → B} (hA : NonoverlapMat P pis sz G A M) (c : Nat → NovCache)
    (hc : ∀ p, p < P → NovReach (K := K) β (A p) (pis p) (remoteOf P pis p) p (sz p) (c p)) (order : Nat → List Nat)
    (hord : ∀ q, q < P → (order q).Perm ((List.range P).filter (· ≠ q))) (alpha : K) (x y : Nat → Nat → V) (X Y : Nat → V)
    (hx : ConsistentExceptOverlap P pis x X) (hy : ConsistentExceptOverlap P pis y Y) :
    ∃ (loc : Nat → Nat → V) (c' : Nat → NovCache),
      (∀ p, p < P → novOpOn β (A p) (pis p) (remoteOf P pis p) p (sz p) alpha (x p) (fun _ => 0) (c p) = .ok (loc p, c' p)) ∧
      ConsistentExceptOverlap P pis (novScaleAdd pis order loc y) (fun g => Y g + alpha • globalMul β G M X g) ∧
      ∀ p, p < P → ∀ e ∈ pis p, e.attr = .overlap → novScaleAdd pis order loc y p e.loc = y p e.loc := by
  classical
  have hloc : ∀ p, p < P → ∃ (y' : Nat → V) (c' : NovCache),
      novOpOn β (A p) (pis p) (remoteOf P pis p) p (sz p) alpha (x p) (fun _ => 0) (c p) = .ok (y', c') ∧
        ∀ e ∈ pis p, y' e.loc = if e.attr = .overlap then 0 else
          ∑ h ∈ G, if Contrib P pis p e.g h then alpha • β.mul (M e.g h) (X h) else 0 := by
    intro p hp
    obtain ⟨c', h⟩ := novOp_local (K := K) hD β hA hp
    have hr : ∀ d, NovReach (K := K) β (A p) (pis p) (remoteOf P pis p) p (sz p) d → d = ⟨true, [], []⟩ ∨ d = c' := by
      intro d hd
      induction hd with
      | new => exact .inl rfl
      | call d d' al u v v' _ hcall ih =>
        right
        obtain ⟨w, hw, -⟩ := h d ih al u v (fun g => match lookup (pis p) g with | some e => u e.loc | none => 0) (by
          intro f hf _
          rw [(lookup_iff (hD.ok p hp) f.g f).2 ⟨hf, rfl⟩])
        rw [hcall] at hw
        injection hw with hw
        exact congrArg Prod.snd hw
    obtain ⟨y', h1, h2⟩ := h (c p) (hr _ (hc p hp)) alpha (x p) (fun _ => 0) X (fun f hf ha => hx p hp f hf ha)
    exact ⟨y', c', h1, fun e he => by rw [h2 e he, zero_add]⟩
  have hloc' : ∀ p, ∃ (y' : Nat → V) (c' : NovCache), p < P →
      novOpOn β (A p) (pis p) (remoteOf P pis p) p (sz p) alpha (x p) (fun _ => 0) (c p) = .ok (y', c') ∧
        ∀ e ∈ pis p, y' e.loc = if e.attr = .overlap then 0 else
          ∑ h ∈ G, if Contrib P pis p e.g h then alpha • β.mul (M e.g h) (X h) else 0 := by
    intro p
    by_cases hp : p < P
    · obtain ⟨y', c', h⟩ := hloc p hp; exact ⟨y', c', fun _ => h⟩
    · exact ⟨fun _ => 0, ⟨true, [], []⟩, fun h => absurd h hp⟩
  choose loc c' hl using hloc'
  have hl1 := fun p hp => (hl p hp).1
  have hl2 := fun p hp => (hl p hp).2
  refine ⟨loc, c', hl1, ?_, ?_⟩
  · intro q hq e he ha
    change addOwnerCopyToOwnerCopy pis loc loc q (order q) e.loc + y q e.loc = _
    rw [hy q hq e he ha, add_comm,
      comm_sum hD loc (fun p g => ∑ h ∈ G, if Contrib P pis p g h then alpha • β.mul (M g h) (X h) else 0)
        (fun p hp f hf hfa => by rw [hl2 p hp f hf, if_neg hfa])
        (fun p hp g hg => Finset.sum_eq_zero fun h _ => if_neg fun hcon => hg hcon.1) hq (order q) (hord q hq) he ha,
      contrib_sum hD hN β hA alpha X (hD.inG q hq e he)]
  · intro q hq e he ha
    change addOwnerCopyToOwnerCopy pis loc loc q (order q) e.loc + y q e.loc = _
    rw [(C36_addOwnerCopy hD.ok loc loc hq (order q) (hord q hq)).2.2 e he ha, hl2 q hq e he, if_pos ha, zero_add]

/-- `NonoverlappingSchwarzOperator::apply(x,y)`: every process ends up with the global product at its owner and copy indices and zero at
its overlap indices. -/
theorem C55_apply {P : Nat} {pis : Nat → PIS} {sz : Nat → Nat} {G : Finset Nat} (hD : Decomp P pis sz G) (hN : NoCrossOwners P pis)
    (β : BlockAct B V V) {A : Nat → SpMat B} {M : Nat → Nat → B} (hA : NonoverlapMat P pis sz G A M) (c : Nat → NovCache)
    (hc : ∀ p, p < P → NovReach (K := K) β (A p) (pis p) (remoteOf P pis p) p (sz p) (c p)) (order : Nat → List Nat)
    (hord : ∀ q, q < P → (order q).Perm ((List.range P).filter (· ≠ q))) (x : Nat → Nat → V) (X : Nat → V)
    (hx : ConsistentExceptOverlap P pis x X) :
    ∃ (loc : Nat → Nat → V) (c' : Nat → NovCache),
      (∀ p, p < P → novOpOn β (A p) (pis p) (remoteOf P pis p) p (sz p) (1 : K) (x p) (fun _ => 0) (c p) = .ok (loc p, c' p)) ∧
      ConsistentExceptOverlap P pis (novApply pis order loc) (globalMul β G M X) ∧
      ∀ p, p < P → ∀ e ∈ pis p, e.attr = .overlap → novApply pis order loc p e.loc = 0 := by
  obtain ⟨loc, c', h1, h2, h3⟩ := C55_applyscaleadd hD hN β hA c hc order hord (1 : K) x (fun _ _ => 0) X (fun _ => 0) hx
    (fun _ _ _ _ _ => rfl)
  refine ⟨loc, c', h1, fun p hp e he ha => ?_, fun p hp e he ha => ?_⟩
  · have := h2 p hp e he ha
    dsimp only at this
    rw [zero_add, one_smul] at this
    rw [← this]
    exact (add_zero _).symm
  · have := h3 p hp e he ha
    rw [← this]
    exact (add_zero _).symm

/-- `NonoverlappingBlockPreconditioner::apply`, any sequential preconditioners that only look at the local vectors: an operator on global
vectors, the sum over all processes holding an index of what they compute for it. -/
theorem C55_preconditioner {P : Nat} {pis : Nat → PIS} {sz : Nat → Nat} {G : Finset Nat} (hD : Decomp P pis sz G)
    (prec : Nat → (Nat → V) → (Nat → V) → (Nat → V))
    (hprec : ∀ p v v' d d', (∀ i, i < sz p → v i = v' i ∧ d i = d' i) → ∀ i, i < sz p → prec p v d i = prec p v' d' i)
    (order : Nat → List Nat) (hord : ∀ q, q < P → (order q).Perm ((List.range P).filter (· ≠ q))) (v d : Nat → Nat → V) (D : Nat → V)
    (hv : Consistent P pis v (fun _ => 0)) (hd : ConsistentExceptOverlap P pis d D)
    (hd0 : ∀ p, p < P → ∀ e ∈ pis p, e.attr = .overlap → d p e.loc = 0) :
    ConsistentExceptOverlap P pis (novPrecApply prec pis order v d)
      (fun g => ∑ p ∈ range P, contribution (fun a => a ≠ .overlap) (pis p) (prec p (fun _ => 0) (novView pis D p)) g) := by
  intro q hq e he ha
  refine comm_sum hD (fun p => prec p (v p) (d p))
    (fun p g => contribution (fun a => a ≠ .overlap) (pis p) (prec p (fun _ => 0) (novView pis D p)) g) ?_ ?_ hq (order q) (hord q hq) he ha
  · intro p hp f hf hfa
    unfold contribution
    rw [(lookup_iff (hD.ok p hp) f.g f).2 ⟨hf, rfl⟩]
    dsimp only
    rw [if_pos (by simpa using hfa)]
    refine hprec p _ _ _ _ (fun i hi => ?_) f.loc (hD.bounded p hp f hf)
    obtain ⟨k, hk, rfl⟩ := hD.covered p hp i hi
    refine ⟨hv p hp k hk, ?_⟩
    have : (pis p).find? (fun f => decide (f.loc = k.loc)) = some k := by
      rcases hf : (pis p).find? (fun f => decide (f.loc = k.loc)) with _ | f
      · rw [List.find?_eq_none] at hf
        exact absurd (hf k hk) (by simp)
      · have hfe : f.loc = k.loc := by simpa using List.find?_some hf
        exact hf.trans (congrArg some (idx_eq_of_loc (hD.ok p hp) (List.mem_of_find?_eq_some hf) hk hfe))
    rw [novView, this]
    dsimp only
    split
    · exact hd0 p hp k hk ‹_›
    · exact hd p hp k hk ‹_›
  · intro p hp g hg
    unfold contribution
    cases hl : lookup (pis p) g with
    | none => rfl
    | some f =>
      obtain ⟨hf, hfg⟩ := (lookup_iff (hD.ok p hp) _ _).1 hl
      dsimp only
      rw [if_neg]
      intro h
      exact hg ⟨f, hf, hfg, by simpa using h⟩

/-! ### Example: three unknowns, the middle one shared -/

/-- Process 0 owns 0 and 1; process 1 owns 2, has 1 as border and 0 as ghost. -/
def demoNov : Nat → PIS
  | 0 => [⟨0, 0, .owner⟩, ⟨1, 1, .owner⟩]
  | _ => [⟨0, 2, .overlap⟩, ⟨1, 1, .copy⟩, ⟨2, 0, .owner⟩]

theorem demoNov_decomp : Decomp 2 demoNov (fun p => if p = 0 then 2 else 3) {0, 1, 2} where
  ok p hp := by interval_cases p <;> exact ⟨by decide, by decide⟩
  bounded p hp := by interval_cases p <;> decide
  covered p hp := by
    interval_cases p
    · intro i hi; have hi : i < 2 := hi; interval_cases i <;> decide
    · intro i hi; have hi : i < 3 := hi; interval_cases i <;> decide
  inG p hp := by interval_cases p <;> decide
  owned g hg := by
    have : g < 3 := by
      have : ∀ g ∈ ({0, 1, 2} : Finset Nat), g < 3 := by decide
      exact this g hg
    interval_cases g
    · exact ⟨0, by decide, by decide⟩
    · exact ⟨0, by decide, by decide⟩
    · exact ⟨1, by decide, by decide⟩
  unique p q hp hq := by interval_cases p <;> interval_cases q <;> decide

theorem demoNov_lowest : LowestRankOwns 2 demoNov := by
  intro g p q hp hq h1 h2
  interval_cases p <;> interval_cases q
  · omega
  · omega
  · obtain ⟨e, he, hg, ha⟩ := h1
    obtain ⟨f, hf, hg', ha'⟩ := h2
    exfalso
    have : ∀ e ∈ demoNov 1, ∀ f ∈ demoNov 0, e.attr = .owner → f.attr ≠ .overlap → f.g ≠ e.g := by decide
    exact this e he f hf ha ha' (hg'.trans hg.symm)
  · omega

/-- The local matrices: complete for the pairs of owner and border indices; the ghost row holds a Dirichlet condition. -/
def demoNovMat : Nat → SpMat ℤ
  | 0 => { n := 2, m := 2, row := fun i => match i with | 0 => [(0, 2), (1, -1)] | 1 => [(0, -1), (1, 2)] | _ => [] }
  | _ => { n := 3, m := 3, row := fun i => match i with | 0 => [(0, 2), (1, -1)] | 1 => [(0, -1), (1, 2), (2, -1)] | 2 => [(2, 1)] | _ => [] }

theorem demoNov_mat : NonoverlapMat 2 demoNov (fun p => if p = 0 then 2 else 3) {0, 1, 2} demoNovMat demoM where
  wf p hp := by
    interval_cases p
    · intro i hi
      have hi : i < 2 := hi
      interval_cases i <;> simp [demoNovMat, Row.Asc]
    · intro i hi
      have hi : i < 3 := hi
      interval_cases i <;> simp [demoNovMat, Row.Asc]
  rows p hp := by interval_cases p <;> rfl
  cols p hp := by interval_cases p <;> rfl
  entry p hp := by interval_cases p <;> decide
  closed g hg h hh hno := by
    have hlt : ∀ g ∈ ({0, 1, 2} : Finset Nat), g < 3 := by decide
    have hg := hlt g hg
    have hh := hlt h hh
    have h0 : ∀ a b, (∃ e ∈ demoNov 0, e.g = a ∧ e.attr ≠ .overlap) → (∃ e ∈ demoNov 0, e.g = b ∧ e.attr ≠ .overlap) → ¬ (g = a ∧ h = b) := by
      rintro a b h1 h2 ⟨rfl, rfl⟩; exact hno 0 (by decide) h1 h2
    have h1 : ∀ a b, (∃ e ∈ demoNov 1, e.g = a ∧ e.attr ≠ .overlap) → (∃ e ∈ demoNov 1, e.g = b ∧ e.attr ≠ .overlap) → ¬ (g = a ∧ h = b) := by
      rintro a b h1 h2 ⟨rfl, rfl⟩; exact hno 1 (by decide) h1 h2
    have hz : (g = 0 ∧ h = 2) ∨ (g = 2 ∧ h = 0) := by
      have a1 := h0 0 0 (by decide) (by decide)
      have a2 := h0 0 1 (by decide) (by decide)
      have a3 := h0 1 0 (by decide) (by decide)
      have a4 := h0 1 1 (by decide) (by decide)
      have a5 := h1 1 2 (by decide) (by decide)
      have a6 := h1 2 1 (by decide) (by decide)
      have a7 := h1 2 2 (by decide) (by decide)
      omega
    rcases hz with ⟨rfl, rfl⟩ | ⟨rfl, rfl⟩ <;> rfl

/-- What process `p` computes for the vector 5, 7, 11 (ghost value 99), with the object in the state `c`. -/
def demoNovRun (c : NovCache) (p : Nat) : Option (List ℤ) :=
  match novOpOn intAct (demoNovMat p) (demoNov p) (remoteOf 2 demoNov p) p (if p = 0 then 2 else 3) (1 : ℤ)
      (fun i => (if p = 0 then [5, 7] else [11, 7, 99]).getD i 0) (fun _ => 0) c with
  | .ok (y, _) => some ((List.range 3).map y)
  | _ => none

/-- The diagonal entry of the border unknown is added by the owner only: `-5+14` there and `-11` on the other process. -/
example : demoNovRun ⟨true, [], []⟩ 0 = some [3, 9, 0] ∧ demoNovRun ⟨true, [], []⟩ 1 = some [15, -11, 0] := by decide +kernel

/-! ### Where the hypothesis is needed -/

/-- Both processes hold both unknowns; process 0 owns the first one and process 1 the second one. -/
def demoCross : Nat → PIS
  | 0 => [⟨0, 0, .owner⟩, ⟨1, 1, .copy⟩]
  | _ => [⟨0, 0, .copy⟩, ⟨1, 1, .owner⟩]

/-- The matrix `[[2,-1],[-1,2]]` on both processes. -/
def demoCrossMat : SpMat ℤ := { n := 2, m := 2, row := fun i => match i with | 0 => [(0, 2), (1, -1)] | 1 => [(0, -1), (1, 2)] | _ => [] }

/-- What process `p` computes for the vector 5, 7. -/
def demoCrossRun (pis : Nat → PIS) (p : Nat) : Res (List ℤ) := do
  let r ← novOpOn intAct demoCrossMat (pis p) (remoteOf 2 pis p) p 2 (1 : ℤ) (fun i => [5, 7].getD i 0) (fun _ => 0) ⟨true, [], []⟩
  .ok ((List.range 2).map r.1)

/-- If the owners of two coupled border unknowns differ, their entry is added twice: `10 - 7 - 7` instead of `10 - 7`. -/
theorem C55_cross_owner_counterexample :
    demoCrossRun demoCross 0 = .ok [3, -5] ∧ demoCrossRun demoCross 1 = .ok [-7, 9] ∧
    (novApply demoCross (fun q => [1 - q]) (fun p i => (if p = 0 then [3, -5] else [-7, 9]).getD i (0 : ℤ))) 0 0 = -4 ∧
    (2 : ℤ) * 5 + -1 * 7 = 3 := by
  refine ⟨?_, ?_, ?_, ?_⟩ <;> decide +kernel

/-- A border unknown that no other process owns: the end iterator of the map of owners is dereferenced. -/
theorem C55_unowned_counterexample : demoCrossRun (fun _ => [⟨0, 0, .owner⟩, ⟨1, 1, .copy⟩]) 0 = .ub := by decide +kernel

end Par
end Istl
