import Verif.Lemmas.Novlp2
import Verif.Props.C54

/-! # What one process computes in the nonoverlapping operator -/

namespace Istl
namespace Par
open Finset
variable {B V K : Type} [AddCommGroup B] [AddCommGroup V] [Ring K] [Module K V]

theorem mem_remoteOf {P : Nat} {pis : Nat → PIS} {p q : Nat} {l : List (Nat × Attr)} : (q, l) ∈ remoteOf P pis p ↔
    q < P ∧ q ≠ p ∧ l ≠ [] ∧ l = (pis p).filterMap fun e => (lookup (pis q) e.g).map fun r => (e.loc, r.attr) := by
  unfold remoteOf
  rw [List.mem_filterMap]
  constructor
  · rintro ⟨k, hk, h⟩
    rw [List.mem_filter, List.mem_range] at hk
    split at h
    · cases h
    · rename_i hne
      simp only [Option.some.injEq, Prod.mk.injEq] at h
      obtain ⟨rfl, rfl⟩ := h
      exact ⟨hk.1, by simpa using hk.2, hne, rfl⟩
  · rintro ⟨h1, h2, h3, h4⟩
    refine ⟨q, by simp [h1, h2], ?_⟩
    split
    · rename_i hn; exact absurd (h4.trans hn) h3
    · rw [h4]

theorem remoteOf_iff {P : Nat} {pis : Nat → PIS} (hok : ∀ p, p < P → PisOk (pis p)) {p : Nat} (hp : p < P) {e : Idx} (he : e ∈ pis p)
    (q : Nat) (a : Attr) :
    (∃ l, (q, l) ∈ remoteOf P pis p ∧ (e.loc, a) ∈ l) ↔ q < P ∧ q ≠ p ∧ ∃ r ∈ pis q, r.g = e.g ∧ r.attr = a := by
  constructor
  · rintro ⟨l, h1, h2⟩
    obtain ⟨hq, hne, -, rfl⟩ := mem_remoteOf.1 h1
    obtain ⟨f, hf, h⟩ := List.mem_filterMap.1 h2
    rw [Option.map_eq_some_iff] at h
    obtain ⟨r, hr, h⟩ := h
    simp only [Prod.mk.injEq] at h
    have := idx_eq_of_loc (hok p hp) hf he h.1
    subst this
    obtain ⟨h3, h4⟩ := (lookup_iff (hok q hq) _ _).1 hr
    exact ⟨hq, hne, r, h3, h4, h.2⟩
  · rintro ⟨hq, hne, r, hr, hg, ha⟩
    have hm : (e.loc, a) ∈ (pis p).filterMap fun e => (lookup (pis q) e.g).map fun r => (e.loc, r.attr) :=
      List.mem_filterMap.2 ⟨e, he, by rw [(lookup_iff (hok q hq) _ _).2 ⟨hr, hg⟩, ← ha]; rfl⟩
    exact ⟨_, mem_remoteOf.2 ⟨hq, hne, List.ne_nil_of_mem hm, rfl⟩, hm⟩

/-- Process `p` adds the entry of the pair `g`, `h`. -/
def Contrib (P : Nat) (pis : Nat → PIS) (p g h : Nat) : Prop :=
  Holds pis p g ∧ Holds pis p h ∧
    (Owns pis p g ∨ Owns pis p h ∨ ∀ q, q < P → q ≠ p → Holds pis q g → Holds pis q h → ¬ Owns pis q g ∧ ¬ Owns pis q h ∧ p < q)

theorem holds_iff {P : Nat} {pis : Nat → PIS} (hok : ∀ p, p < P → PisOk (pis p)) {p : Nat} (hp : p < P) {e : Idx} (he : e ∈ pis p) :
    Holds pis p e.g ↔ e.attr ≠ .overlap :=
  ⟨fun ⟨f, hf, hg, ha⟩ => by rw [← idx_eq_of_g (hok p hp) hf he hg]; exact ha, fun h => ⟨e, he, rfl, h⟩⟩

theorem owns_iff {P : Nat} {pis : Nat → PIS} (hok : ∀ p, p < P → PisOk (pis p)) {p : Nat} (hp : p < P) {e : Idx} (he : e ∈ pis p) :
    Owns pis p e.g ↔ e.attr = .owner :=
  ⟨fun ⟨f, hf, hg, ha⟩ => by rw [← idx_eq_of_g (hok p hp) hf he hg]; exact ha, fun h => ⟨e, he, rfl, h⟩⟩

theorem code_zero {a : Attr} : code a = 0 ↔ a = .copy := by cases a <;> simp [code]
theorem code_one {a : Attr} : code a = 1 ↔ a = .owner := by cases a <;> simp [code]
theorem code_two {a : Attr} : code a = 2 ↔ a = .overlap := by cases a <;> simp [code]

theorem mem_of_lookup {l : List (Nat × Nat)} {i a : Nat} (h : l.lookup i = some a) : (i, a) ∈ l := by
  induction l with
  | nil => cases h
  | cons b l ih =>
    obtain ⟨b1, b2⟩ := b
    rw [List.lookup_cons] at h
    by_cases hb : (i == b1) = true
    · rw [hb] at h
      have : i = b1 := by simpa using hb
      cases h; subst this; exact List.mem_cons_self ..
    · have hb : (i == b1) = false := by simpa using hb
      rw [hb] at h
      exact List.mem_cons_of_mem _ (ih h)

/-- The set-up phase: it succeeds and keeps exactly the border entries the process has to add. -/
theorem setup_ok {P : Nat} {pis : Nat → PIS} {sz : Nat → Nat} {G : Finset Nat} (hD : Decomp P pis sz G) {p : Nat} (hp : p < P)
    (A : SpMat B) (hA : A.WF) (hn : A.n = sz p) (hm : A.m = sz p) :
    ∃ c, novSetup A (pis p) (remoteOf P pis p) p (sz p) ⟨true, [], []⟩ = .ok c ∧ c.build = false ∧ c.border.Nodup ∧
      c.mask.length = sz p ∧ (∀ e ∈ pis p, c.mask[e.loc]? = some (code e.attr)) ∧
      ∀ e ∈ pis p, ∀ f ∈ pis p, e.attr = .copy → f.attr = .copy → (∃ b, (f.loc, b) ∈ A.row e.loc) →
        ((e.loc, f.loc) ∈ c.border ↔ Contrib P pis p e.g f.g) := by
  obtain ⟨mask, m1, m2, m3⟩ := novMask_ok (hD.ok p hp) (sz p) (hD.bounded p hp)
  obtain ⟨rm, r1, r2⟩ := novRemote_ok A.n mask (by omega) (remoteOf P pis p)
  let μ : Nat → Nat := fun i => mask.getD i 0
  have hμ : ∀ i, i < sz p → mask[i]? = some (μ i) := by
    intro i hi
    simp only [μ, List.getD_eq_getElem?_getD, List.getElem?_eq_getElem (show i < mask.length by omega), Option.getD_some]
  have hμe : ∀ e ∈ pis p, μ e.loc = code e.attr := by
    intro e he
    have := hμ e.loc (hD.bounded p hp e he)
    rw [m3 e he] at this
    exact (Option.some.inj this).symm
  let own : Nat → Nat := fun i => (rm.owner.lookup i).getD 0
  have hrow : ∀ e ∈ pis p, e.attr = .copy → e.loc < A.n ∧ mask[e.loc]? = some 0 := fun e he ha =>
    ⟨by rw [hn]; exact hD.bounded p hp e he, by rw [m3 e he, ha]; rfl⟩
  have ho : ∀ i, i < A.n → μ i = 0 → rm.owner.lookup i = some (own i) := by
    intro i hi h0
    obtain ⟨e, he, rfl⟩ := hD.covered p hp i (by omega)
    rw [hμe e he, code_zero] at h0
    obtain ⟨q, hq, r, hr, hg, ha⟩ := hD.owned e.g (hD.inG p hp e he)
    have hqp : q ≠ p := by
      rintro rfl
      rw [idx_eq_of_g (hD.ok q hq) hr he hg, h0] at ha
      cases ha
    obtain ⟨l, hl1, hl2⟩ := (remoteOf_iff hD.ok hp he q .owner).2 ⟨hq, hqp, r, hr, hg, ha⟩
    have hs := r2.complete e.loc q l (hrow e he h0) hl1 hl2
    obtain ⟨a, h⟩ := Option.isSome_iff_exists.1 hs
    simp only [own, h, Option.getD_some]
  have hown : ∀ e ∈ pis p, e.attr = .copy → own e.loc < P ∧ own e.loc ≠ p ∧ Owns pis (own e.loc) e.g := by
    intro e he ha
    have h := ho e.loc (hrow e he ha).1 (by rw [hμe e he, ha]; rfl)
    obtain ⟨l, h1, h2⟩ := r2.sound _ _ (mem_of_lookup h)
    obtain ⟨h3, h4, r, h5, h6, h7⟩ := (remoteOf_iff hD.ok hp he _ _).1 ⟨l, h1, h2⟩
    exact ⟨h3, h4, r, h5, h6, h7⟩
  obtain ⟨bc, b1, b2, b3⟩ := novBorder_ok A p mask rm μ own (fun i hi => by
      have := (hA i hi).1
      exact List.Pairwise.imp (fun h => Nat.ne_of_lt h) (by simpa [Row.Asc, List.pairwise_map] using this)) (fun i hi => hμ i (by omega))
    (fun i hi e he => hμ e.1 (by rw [← hm]; exact (hA i hi).2 e he)) ho
  refine ⟨⟨false, mask, bc⟩, ?_, rfl, b2, m2, m3, ?_⟩
  · unfold novSetup
    rw [if_pos rfl, m1]
    simp only [Res.ok_bind, r1, b1]
  · intro e he f hf hea hfa hst
    rw [b3]
    have hknown : ∀ e ∈ pis p, e.attr = .copy → ∀ q a, (e.loc, q, a) ∈ rm.known ↔ a ≠ .overlap ∧ q < P ∧ q ≠ p ∧ ∃ r ∈ pis q, r.g = e.g ∧ r.attr = a := by
      intro e he ha q a
      rw [r2.known, remoteOf_iff hD.ok hp he]
      exact ⟨fun h => h.2, fun h => ⟨hrow e he ha, h⟩⟩
    have hbl : novBlocked rm p (own e.loc) e.loc f.loc = true ↔
        ∃ q, q < P ∧ q ≠ p ∧ Holds pis q e.g ∧ Holds pis q f.g ∧ (Owns pis q f.g ∨ Owns pis q e.g ∨ q < p) := by
      unfold novBlocked
      simp only [List.any_eq_true, List.mem_filter, Bool.and_eq_true, Bool.or_eq_true, decide_eq_true_eq]
      constructor
      · rintro ⟨⟨i, q, a⟩, ⟨h1, rfl⟩, ⟨j, q', b⟩, ⟨h2, rfl⟩, rfl, h3⟩
        obtain ⟨ha, hq, hqp, r, hr, hrg, hra⟩ := (hknown e he hea q' a).1 h1
        obtain ⟨hb, -, -, s, hs, hsg, hsb⟩ := (hknown f hf hfa q' b).1 h2
        refine ⟨q', hq, hqp, ⟨r, hr, hrg, by rw [hra]; exact ha⟩, ⟨s, hs, hsg, by rw [hsb]; exact hb⟩, ?_⟩
        rcases h3 with (h3 | h3) | h3
        · exact .inl ⟨s, hs, hsg, by rw [hsb]; exact h3⟩
        · exact .inr (.inl (by dsimp only at h3; rw [h3]; exact (hown e he hea).2.2))
        · exact .inr (.inr h3)
      · rintro ⟨q, hq, hqp, ⟨r, hr, hrg, hra⟩, ⟨s, hs, hsg, hsa⟩, h⟩
        refine ⟨(e.loc, q, r.attr), ⟨(hknown e he hea _ _).2 ⟨hra, hq, hqp, r, hr, hrg, rfl⟩, rfl⟩,
          (f.loc, q, s.attr), ⟨(hknown f hf hfa _ _).2 ⟨hsa, hq, hqp, s, hs, hsg, rfl⟩, rfl⟩, rfl, ?_⟩
        rcases h with h | h | h
        · rw [← hsg] at h
          exact .inl (.inl ((owns_iff hD.ok hq hs).1 h))
        · obtain ⟨t, ht, htg, hta⟩ := h
          obtain ⟨o1, -, u, hu, hug, hua⟩ := hown e he hea
          exact .inl (.inr (hD.unique q (own e.loc) hq o1 t ht u hu hta hua (htg.trans hug.symm)))
        · exact .inr h
    have hne : ¬ Owns pis p e.g := by rw [owns_iff hD.ok hp he, hea]; decide
    have hnf : ¬ Owns pis p f.g := by rw [owns_iff hD.ok hp hf, hfa]; decide
    have he' : Holds pis p e.g := by rw [holds_iff hD.ok hp he, hea]; decide
    have hf' : Holds pis p f.g := by rw [holds_iff hD.ok hp hf, hfa]; decide
    constructor
    · rintro ⟨-, -, -, -, h⟩
      refine ⟨he', hf', .inr (.inr fun q hq hqp h1 h2 => ?_)⟩
      have : ¬ ∃ q, q < P ∧ q ≠ p ∧ Holds pis q e.g ∧ Holds pis q f.g ∧ (Owns pis q f.g ∨ Owns pis q e.g ∨ q < p) := by
        rw [← hbl, h]; decide
      refine ⟨fun h => this ⟨q, hq, hqp, h1, h2, .inr (.inl h)⟩, fun h => this ⟨q, hq, hqp, h1, h2, .inl h⟩, ?_⟩
      have h3 : ¬ q < p := fun h => this ⟨q, hq, hqp, h1, h2, .inr (.inr h)⟩
      omega
    · rintro ⟨-, -, h⟩
      refine ⟨(hrow e he hea).1, by rw [hμe e he, hea]; rfl, hst, by rw [hμe f hf, hfa]; rfl, ?_⟩
      rw [Bool.eq_false_iff, Ne, hbl]
      rintro ⟨q, hq, hqp, h1, h2, h3⟩
      rcases h with h | h | h
      · exact hne h
      · exact hnf h
      · obtain ⟨a, b, c⟩ := h q hq hqp h1 h2
        rcases h3 with h3 | h3 | h3
        · exact b h3
        · exact a h3
        · omega

open Classical in
/-- The local result on process `p`, at the first call and at every later one. -/
theorem novOp_local {P : Nat} {pis : Nat → PIS} {sz : Nat → Nat} {G : Finset Nat} (hD : Decomp P pis sz G) (β : BlockAct B V V)
    {A : Nat → SpMat B} {M : Nat → Nat → B} (hA : NonoverlapMat P pis sz G A M) {p : Nat} (hp : p < P) :
    ∃ c', ∀ c, (c = ⟨true, [], []⟩ ∨ c = c') → ∀ (alpha : K) (x y : Nat → V) (X : Nat → V),
      (∀ f ∈ pis p, f.attr ≠ .overlap → x f.loc = X f.g) →
      ∃ y', novOpOn β (A p) (pis p) (remoteOf P pis p) p (sz p) alpha x y c = .ok (y', c') ∧
        ∀ e ∈ pis p, y' e.loc = y e.loc + if e.attr = .overlap then 0 else
          ∑ h ∈ G, if Contrib P pis p e.g h then alpha • β.mul (M e.g h) (X h) else 0 := by
  obtain ⟨c', s1, s2, s3, s4, s5, s6⟩ := setup_ok hD hp (A p) (hA.wf p hp) (hA.rows p hp) (hA.cols p hp)
  refine ⟨c', fun c hc alpha x y X hx => ?_⟩
  let μ : Nat → Nat := fun i => c'.mask.getD i 0
  have hμ : ∀ i, i < sz p → c'.mask[i]? = some (μ i) := by
    intro i hi
    simp only [μ, List.getD_eq_getElem?_getD, List.getElem?_eq_getElem (show i < c'.mask.length by omega), Option.getD_some]
  have hμe : ∀ e ∈ pis p, μ e.loc = code e.attr := by
    intro e he
    have := hμ e.loc (hD.bounded p hp e he)
    rw [s5 e he] at this
    exact (Option.some.inj this).symm
  have hset : novSetup (A p) (pis p) (remoteOf P pis p) p (sz p) c = .ok c' := by
    rcases hc with rfl | rfl
    · exact s1
    · unfold novSetup; rw [s2]; rfl
  obtain ⟨y', h1, h2⟩ := novSum_ok β (A p) (hA.wf p hp) c' s3 μ (fun i hi => hμ i (by rw [← hA.rows p hp]; exact hi))
    (fun i hi e he => hμ e.1 (by rw [← hA.cols p hp]; exact (hA.wf p hp i hi).2 e he)) alpha x y
  refine ⟨y', ?_, fun e he => ?_⟩
  · unfold novOpOn
    rw [hset, Res.ok_bind, h1, Res.ok_bind]
  · rw [h2, if_pos (by rw [hA.rows p hp]; exact hD.bounded p hp e he)]
    congr 1
    by_cases hov : e.attr = .overlap
    · rw [if_pos hov]
      refine Finset.sum_eq_zero fun j _ => if_neg ?_
      unfold Used
      rw [hμe e he, hov]
      simp [code]
    · rw [if_neg hov, hA.cols p hp]
      refine sum_local hD hp _ _ (fun f hf => ?_) (fun h hh hn => if_neg fun ⟨_, ⟨f, hf, hg, _⟩, _⟩ => hn f hf hg)
      have he' : Holds pis p e.g := (holds_iff hD.ok hp he).2 hov
      by_cases hfo : f.attr = .overlap
      · rw [if_neg, if_neg]
        · rintro ⟨-, h, -⟩
          exact (holds_iff hD.ok hp hf).1 h hfo
        · unfold Used; rw [hμe e he, hμe f hf, hfo]
          rintro (⟨-, h | ⟨h, -⟩⟩ | ⟨-, h⟩)
          · simp [code] at h
          · simp [code] at h
          · exact h rfl
      · have hf' : Holds pis p f.g := (holds_iff hD.ok hp hf).2 hfo
        rw [hA.entry p hp e he hov f hf hfo, hx f hf hfo]
        by_cases hst : ∃ b, (f.loc, b) ∈ (A p).row e.loc
        · refine if_congr ?_ rfl rfl
          unfold Used
          rw [hμe e he, hμe f hf, code_zero, code_one, code_one, Ne, code_two]
          by_cases heo : e.attr = .owner
          · exact ⟨fun _ => ⟨he', hf', .inl ((owns_iff hD.ok hp he).2 heo)⟩, fun _ => .inr ⟨heo, hfo⟩⟩
          · have hec : e.attr = .copy := by
              revert heo hov; cases e.attr <;> simp
            by_cases hfw : f.attr = .owner
            · exact ⟨fun _ => ⟨he', hf', .inr (.inl ((owns_iff hD.ok hp hf).2 hfw))⟩, fun _ => .inl ⟨hec, .inl hfw⟩⟩
            · have hfc : f.attr = .copy := by
                revert hfw hfo; cases f.attr <;> simp
              rw [code_zero, s6 e he f hf hec hfc hst]
              exact ⟨fun h => by rcases h with ⟨_, h | h⟩ | h
                                 · exact absurd h hfw
                                 · exact h.2
                                 · exact absurd h.1 heo, fun h => .inl ⟨hec, .inr ⟨hfc, h⟩⟩⟩
        · have h0 : M e.g f.g = 0 := by
            rw [← hA.entry p hp e he hov f hf hfo]
            unfold SpMat.entry
            exact Row.val_of_not_mem (fun b hb => hst ⟨b, hb⟩)
          rw [h0, map_zero, AddMonoidHom.zero_apply, smul_zero, ite_self, ite_self]

end Par
end Istl
