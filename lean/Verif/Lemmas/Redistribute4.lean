import Verif.Lemmas.Redistribute3

/-! # Lemmas: the redistributed matrix -/

namespace Istl
namespace Par
open Amg MatMat

variable {B : Type}

namespace Setting
variable {P : Nat} {old new : Nat → PIS} {osz nsz : Nat → Nat} {G : Finset Nat} {gmax : Nat} {A : Nat → SpMat B}

theorem lens (h : Setting P old new osz nsz G gmax A) {q : Nat} (hq : q < P) : ∀ e ∈ new q, e.loc < (new q).length := by
  intro e he
  rw [decomp_length h.dnew hq]
  exact h.dnew.bounded q hq e he

/-- The pattern that is stored. -/
theorem pattern (h : Setting P old new osz nsz G gmax A) {q : Nat} (hq : q < P) (o1 o2 o3 : List Nat)
    (h1 : o1.Perm (List.range P)) (h2 : o2.Perm (List.range P)) (h3 : o3.Perm (List.range P)) :
    ∃ sp sp' k, redistributeVar old new (fun p => gatherPat gmax (old p) (A p)) (fun p i => ((A p).row i).length)
        (scatterPat gmax (new q)) (newRowSizes old new A q o1) q o2 (fun _ => []) = .ok sp ∧
      storeLoop (new q) sp = .ok (sp', k) ∧ (new q ≠ [] → 0 < k) ∧ (∀ i, (sp' i).Pairwise (· < ·)) ∧
      (∀ e ∈ new q, e.attr = .owner → ∀ c, c ∈ sp' e.loc ↔ ∃ f ∈ new q, c = f.loc ∧ ∃ b, (e.loc, f.g, b) ∈ recV old new gmax A q o3) ∧
      (∀ e ∈ new q, e.attr ≠ .owner → ∀ c, c ∈ sp' e.loc ↔ c = e.loc ∨ ∃ f ∈ new q, f.attr = .owner ∧ c = f.loc ∧
        ∃ b, (f.loc, e.g, b) ∈ recV old new gmax A q o3) := by
  have hlen := h.lens hq
  have hrow : ∀ d ∈ recP old new gmax A q o2, ∃ e ∈ new q, e.attr = .owner ∧ d.1 = e.loc := by
    rintro ⟨i, g⟩ hd
    obtain ⟨b, hb⟩ := (h.recP_iff o2 o3 h2 h3 i g).1 hd
    exact h.rec_owner o3 h3 hb
  obtain ⟨sp, a1, a2, a3⟩ := patternFold_ok (gmax := gmax) (h.dnew.ok q hq) hlen (recP old new gmax A q o2) (fun _ => [])
    (fun _ => List.Pairwise.nil) (fun d hd => by obtain ⟨e, he, _, hl⟩ := hrow d hd; rw [hl]; exact hlen e he)
  obtain ⟨sp', k, b1, b2, b3, _, b5⟩ := storeFold_ok (n := (new q).length) (new q) sp 0 a2 hlen
  have hg : ∀ e ∈ new q, e.g ≠ gmax := fun e he hh => h.gfree (hh ▸ h.dnew.inG q hq e he)
  have howner : ∀ e ∈ new q, e.attr = .owner → ∀ c, c ∈ sp e.loc ↔
      ∃ f ∈ new q, c = f.loc ∧ ∃ b, (e.loc, f.g, b) ∈ recV old new gmax A q o3 := by
    intro e he ha c
    rw [a3 e.loc c]
    constructor
    · rintro (hh | ⟨d, hd, t1, ip, t2, t3, (⟨t4, t5⟩ | ⟨t4, t5, _⟩)⟩)
      · cases hh
      · refine ⟨ip, t2, t5, (h.recP_iff o2 o3 h2 h3 _ _).1 ?_⟩
        rw [t3, ← t4]
        exact hd
      · exact absurd ((idx_eq_of_loc (h.dnew.ok q hq) he t2 t5) ▸ ha) t4
    · rintro ⟨f, hf, rfl, hb⟩
      exact .inr ⟨(e.loc, f.g), (h.recP_iff o2 o3 h2 h3 _ _).2 hb, hg f hf, f, hf, rfl, .inl ⟨rfl, rfl⟩⟩
  refine ⟨sp, sp', k, (h.patComm hq _ o1 o2 h1 h2 _).trans a1, b1, ?_, b2, ?_, ?_⟩
  · intro hne
    obtain ⟨e, he⟩ := List.exists_mem_of_ne_nil _ hne
    refine b5 ⟨e, he, ?_⟩
    by_cases ha : e.attr = .owner
    · left
      obtain ⟨p, hp, e0, he0, hg0, ha0⟩ := h.oldOwner hq he
      obtain ⟨_, bb, hb⟩ := h.diag p hp e0 he0 ha0
      refine List.ne_nil_of_mem ((howner e he ha e.loc).2 ⟨e, he, rfl, bb, ?_⟩)
      refine (h.mem_recV hq o3 h3 hp he ha he0 hg0 ha0 he bb).2 ⟨e0, he0, hg0, ?_, hb⟩
      rw [ha0]; decide
    · exact .inr ha
  · intro e he ha c
    rw [b3 e.loc c, howner e he ha c]
    constructor
    · rintro (hh | ⟨e', he', ha', hl, _⟩)
      · exact hh
      · exact absurd ((idx_eq_of_loc (h.dnew.ok q hq) he he' hl) ▸ ha) ha'
    · exact .inl
  · intro e he ha c
    rw [b3 e.loc c, a3 e.loc c]
    constructor
    · rintro ((hh | ⟨d, hd, t1, ip, t2, t3, (⟨t4, t5⟩ | ⟨t4, t5, t6⟩)⟩) | ⟨e', he', ha', hl, hc⟩)
      · cases hh
      · obtain ⟨e', he', ha', hl⟩ := hrow d hd
        exact absurd ((idx_eq_of_loc (h.dnew.ok q hq) he he' (t4.symm.trans hl)) ▸ ha') ha
      · right
        obtain ⟨f, hf, ha', hl⟩ := hrow d hd
        have : e = ip := idx_eq_of_loc (h.dnew.ok q hq) he t2 t5
        subst this
        refine ⟨f, hf, ha', t6.trans hl, (h.recP_iff o2 o3 h2 h3 _ _).1 ?_⟩
        rw [t3, ← hl]
        exact hd
      · exact .inl (hc.trans hl.symm)
    · rintro (rfl | ⟨f, hf, ha', rfl, hb⟩)
      · exact .inr ⟨e, he, ha, rfl, rfl⟩
      · exact .inl (.inr ⟨(f.loc, e.g), (h.recP_iff o2 o3 h2 h3 _ _).2 hb, hg e he, e, he, rfl, .inr ⟨ha, rfl, rfl⟩⟩)

theorem redistribute [Zero B] (h : Setting P old new osz nsz G gmax A) (one junk : B) (m : SpMat B) (hmn : m.n = 0) (hmm : m.m = 0)
    {q : Nat} (hq : q < P) (o : Orders) (ho : o.Complete P) :
    ∃ N, redistributeMatrix gmax one junk old new A m q o = .ok N ∧ Redistributed P old A one (new q) N := by
  obtain ⟨sp, sp', k, p1, p2, p3, p4, p5, p6⟩ := h.pattern hq o.sizes o.pattern o.values ho.sizes ho.pattern ho.values
  have hlen := h.lens hq
  unfold redistributeMatrix redistributePattern storeSparsityPattern
  rw [p1, Res.ok_bind, p2, Res.ok_bind]
  by_cases hne : new q = []
  · have hrec : recV old new gmax A q o.values = [] := by
      rw [List.eq_nil_iff_forall_not_mem]
      intro d hd
      obtain ⟨e, he, _⟩ := h.rec_owner o.values ho.values hd
      rw [hne] at he; cases he
    have hk : k = 0 := by
      rw [hne] at p2
      unfold storeLoop at p2
      simp only [List.foldlM_nil] at p2
      cases p2
      rfl
    subst hk
    simp only [Nat.lt_irrefl, if_false]
    rw [Res.ok_bind]
    unfold redistributeEntries
    rw [h.valComm hq _ o.sizes o.values ho.sizes ho.values, hrec]
    refine ⟨m, ?_, ?_⟩
    · simp only [List.foldlM_nil]
      show Res.ok (setDirichlet one (new q) m) = _
      rw [hne]; rfl
    · rw [hne]
      exact ⟨fun i hi => absurd hi (by omega), by rw [hmn]; rfl, by rw [hmm]; rfl, by simp, by simp⟩
  · have hk := p3 hne
    dsimp only
    rw [if_pos hk, Res.ok_bind]
    generalize hN0 : (⟨(new q).length, (new q).length, fun i => (sp' i).map fun c => (c, junk)⟩ : SpMat B) = N0
    have hn0 : N0.n = (new q).length := by rw [← hN0]
    have hm0 : N0.m = (new q).length := by rw [← hN0]
    have hr0 : ∀ i, (N0.row i).map Prod.fst = sp' i := by
      intro i
      rw [← hN0]
      simp only [List.map_map]
      exact List.map_id _
    have hhit : ∀ d ∈ recV old new gmax A q o.values, ∀ i c, Hit gmax (new q) d i c → i < N0.n ∧ c ∈ (N0.row i).map Prod.fst := by
      rintro ⟨i', g, b⟩ hd i c ⟨t1, t2, ip, t3, t4, t5⟩
      obtain ⟨e, he, ha, hl⟩ := h.rec_owner o.values ho.values hd
      dsimp only at t1 t2 t4 hl
      subst t1
      rw [hl, hn0, hr0]
      refine ⟨hlen e he, (p5 e he ha c).2 ⟨ip, t3, t5, b, ?_⟩⟩
      rw [t4, ← hl]; exact hd
    obtain ⟨N1, v1, v2, v3, v4, v5⟩ := valueFold_ok (gmax := gmax) (h.dnew.ok q hq) (recV old new gmax A q o.values) N0 hhit
    unfold redistributeEntries
    rw [h.valComm hq _ o.sizes o.values ho.sizes ho.values, v1, Res.ok_bind]
    obtain ⟨d1, d2, d3⟩ := dirichlet_ok one (new q) N1
    change (setDirichlet one (new q) N1).n = _ at d1
    change (setDirichlet one (new q) N1).m = _ at d2
    change ∀ i, ((∀ e ∈ new q, e.attr ≠ .owner → e.loc ≠ i) → (setDirichlet one (new q) N1).row i = N1.row i) ∧
      ((∃ e ∈ new q, e.attr ≠ .owner ∧ e.loc = i) → (setDirichlet one (new q) N1).row i =
        (N1.row i).map fun c => (c.1, if c.1 = i then one else 0)) at d3
    generalize setDirichlet one (new q) N1 = N at d1 d2 d3 ⊢
    refine ⟨N, rfl, ?_⟩
    have hN : N.n = (new q).length := d1.trans (v2.trans hn0)
    have hM : N.m = (new q).length := d2.trans (v3.trans hm0)
    have hpat : ∀ i, (N.row i).map Prod.fst = sp' i := by
      intro i
      by_cases hi : ∃ e ∈ new q, e.attr ≠ .owner ∧ e.loc = i
      · rw [(d3 i).2 hi, List.map_map]
        rw [← hr0 i, ← v4 i]
        rfl
      · rw [(d3 i).1 fun e he ha hl => hi ⟨e, he, ha, hl⟩, v4, hr0]
    have hrowO : ∀ e ∈ new q, e.attr = .owner → N.row e.loc = N1.row e.loc := by
      intro e he ha
      refine (d3 e.loc).1 fun e' he' ha' hl => ha' ?_
      rw [idx_eq_of_loc (h.dnew.ok q hq) he' he hl]; exact ha
    have hmemfst : ∀ {r : List (Nat × B)} {c : Nat}, c ∈ r.map Prod.fst ↔ ∃ b, (c, b) ∈ r := by
      intro r c
      rw [List.mem_map]
      exact ⟨fun ⟨x, hx, hc⟩ => ⟨x.2, by rw [← hc]; exact hx⟩, fun ⟨b, hb⟩ => ⟨_, hb, rfl⟩⟩
    have hO : ∀ e ∈ new q, e.attr = .owner → ∀ p, p < P → ∀ e0 ∈ old p, e0.g = e.g → e0.attr = .owner →
        ∀ f ∈ new q, ∀ b, (f.loc, b) ∈ N.row e.loc ↔ Sent (old p) (A p) e0 f b := by
      intro e he ha p hp e0 he0 hg0 ha0 f hf b
      rw [hrowO e he ha]
      have hgf : f.g ≠ gmax := fun hh => h.gfree (hh ▸ h.dnew.inG q hq f hf)
      have key : ∀ d ∈ recV old new gmax A q o.values, Hit gmax (new q) d e.loc f.loc → Sent (old p) (A p) e0 f d.2.2 := by
        rintro ⟨i', g, b'⟩ hd ⟨t1, t2, ip, t3, t4, t5⟩
        dsimp only at t1 t2 t4
        have : f = ip := idx_eq_of_loc (h.dnew.ok q hq) hf t3 t5
        subst this
        subst t1 t4
        exact (h.mem_recV hq o.values ho.values hp he ha he0 hg0 ha0 hf b').1 hd
      constructor
      · intro hb
        have hc : f.loc ∈ sp' e.loc := by
          rw [← hpat, hrowO e he ha]
          exact hmemfst.2 ⟨b, hb⟩
        obtain ⟨f', hf', hl, b', hb'⟩ := (p5 e he ha f.loc).1 hc
        have : f = f' := idx_eq_of_loc (h.dnew.ok q hq) hf hf' hl
        subst this
        have hS := (h.mem_recV hq o.values ho.values hp he ha he0 hg0 ha0 hf b').1 hb'
        have := ((v5 e.loc f.loc).2 b' ⟨_, hb', rfl, hgf, f, hf, rfl, rfl⟩
          fun d hd ht => h.sent_unique hp he0 (key d hd ht) hS) b
        rw [this.1 hb]
        exact hS
      · intro hS
        have hb' := (h.mem_recV hq o.values ho.values hp he ha he0 hg0 ha0 hf b).2 hS
        exact (((v5 e.loc f.loc).2 b ⟨_, hb', rfl, hgf, f, hf, rfl, rfl⟩
          fun d hd ht => h.sent_unique hp he0 (key d hd ht) hS) b).2 rfl
    refine ⟨?_, hN, hM, hO, ?_⟩
    · intro i hi
      constructor
      · show ((N.row i).map Prod.fst).Pairwise (· < ·)
        rw [hpat]; exact p4 i
      · intro x hx
        have hc : x.1 ∈ sp' i := by rw [← hpat]; exact List.mem_map.2 ⟨x, hx, rfl⟩
        rw [hN, decomp_length h.dnew hq] at hi
        obtain ⟨e, he, rfl⟩ := h.dnew.covered q hq i hi
        rw [hM]
        by_cases ha : e.attr = .owner
        · obtain ⟨f, hf, hl, _⟩ := (p5 e he ha _).1 hc
          rw [hl]; exact hlen f hf
        · rcases (p6 e he ha _).1 hc with hl | ⟨f, hf, _, hl, _⟩
          · rw [hl]; exact hlen e he
          · rw [hl]; exact hlen f hf
    · intro e he ha f hf b
      have hHas : ∀ f ∈ new q, f.attr = .owner → (N.Has f.loc e.loc ↔ ∃ b, (f.loc, e.g, b) ∈ recV old new gmax A q o.values) := by
        intro f hf haf
        obtain ⟨p, hp, f0, hf0, hg0, ha0⟩ := h.oldOwner hq hf
        constructor
        · rintro ⟨_, b, hb⟩
          exact ⟨b, (h.mem_recV hq o.values ho.values hp hf haf hf0 hg0 ha0 he b).2 ((hO f hf haf p hp f0 hf0 hg0 ha0 e he b).1 hb)⟩
        · rintro ⟨b, hb⟩
          exact ⟨by rw [hN]; exact hlen f hf, b, (hO f hf haf p hp f0 hf0 hg0 ha0 e he b).2
            ((h.mem_recV hq o.values ho.values hp hf haf hf0 hg0 ha0 he b).1 hb)⟩
      have hrow := (d3 e.loc).2 ⟨e, he, ha, rfl⟩
      have hp1 : (N1.row e.loc).map Prod.fst = sp' e.loc := by rw [v4, hr0]
      rw [hrow, List.mem_map]
      constructor
      · rintro ⟨x, hx, heq⟩
        simp only [Prod.mk.injEq] at heq
        obtain ⟨hc, hb⟩ := heq
        have hcs : f.loc ∈ sp' e.loc := by rw [← hp1, ← hc]; exact List.mem_map.2 ⟨x, hx, rfl⟩
        by_cases hfe : f.loc = e.loc
        · left
          rw [if_pos (hc.trans hfe)] at hb
          exact ⟨idx_eq_of_loc (h.dnew.ok q hq) hf he hfe, hb.symm⟩
        · right
          rw [if_neg (fun hh => hfe (hc.symm.trans hh))] at hb
          rcases (p6 e he ha _).1 hcs with hl | ⟨f', hf', ha', hl, hh⟩
          · exact absurd hl hfe
          · have : f = f' := idx_eq_of_loc (h.dnew.ok q hq) hf hf' hl
            subst this
            exact ⟨ha', (hHas f hf ha').2 hh, hb.symm⟩
      · have mk : f.loc ∈ sp' e.loc → ∃ x ∈ N1.row e.loc, x.1 = f.loc := by
          intro hc
          rw [← hp1] at hc
          obtain ⟨x, hx, hc⟩ := List.mem_map.1 hc
          exact ⟨x, hx, hc⟩
        rintro (⟨rfl, rfl⟩ | ⟨haf, hh, rfl⟩)
        · obtain ⟨x, hx, hc⟩ := mk ((p6 f he ha _).2 (.inl rfl))
          exact ⟨x, hx, by rw [if_pos hc, hc]⟩
        · obtain ⟨x, hx, hc⟩ := mk ((p6 e he ha _).2 (.inr ⟨f, hf, haf, rfl, (hHas f hf haf).1 hh⟩))
          refine ⟨x, hx, ?_⟩
          rw [if_neg, hc]
          intro hxe
          have : f = e := idx_eq_of_loc (h.dnew.ok q hq) hf he (hc.symm.trans hxe)
          exact ha (this ▸ haf)

end Setting
end Par
end Istl
