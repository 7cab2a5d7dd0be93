import Verif.Lemmas.ParCoarsen3

/-! Publishing the aggregates. -/

namespace Istl
namespace Amg
open Par

theorem mapM_ok {α β : Type} (L : List α) (f : α → Res β) (g : α → β) (h : ∀ i ∈ L, f i = .ok (g i)) : L.mapM f = .ok (L.map g) := by
  induction L with
  | nil => rfl
  | cons a L ih =>
    rw [List.mapM_cons, h a (List.mem_cons_self ..)]
    simp only [Res.ok_bind]
    rw [ih fun i hi => h i (List.mem_cons_of_mem _ hi)]
    rfl

/-- If all messages can be translated, the result is that of copying the translated messages. -/
theorem forwardAgg_eq (src dst : Attr → Bool) (pis C : Nat → PIS) (agg : Nat → Nat → Agg) (q : Nat) (order : List Nat)
    (gath : Nat → Nat → Option Nat) (val : Nat → Nat → Agg)
    (h1 : ∀ p ∈ order, ∀ i ∈ sendList src dst (pis p) (pis q), aggGather (C p) (agg p i) = .ok (gath p i))
    (h2 : ∀ p ∈ order, ∀ i ∈ sendList src dst (pis p) (pis q), aggScatter (C q) (gath p i) = .ok (val p i)) :
    forwardAgg src dst pis C agg q order = .ok (forward (fun _ v => v) src dst pis val agg q order) := by
  unfold forwardAgg forward
  generalize agg q = d
  induction order generalizing d with
  | nil => rfl
  | cons p order ih =>
    rw [List.foldlM_cons, List.foldl_cons, mapM_ok _ _ _ (h1 p (List.mem_cons_self ..))]
    simp only [Res.ok_bind]
    have hz : ∀ (S T : List Nat) (d : Nat → Agg), (∀ i ∈ S, aggScatter (C q) (gath p i) = .ok (val p i)) →
        ((S.map (gath p)).zip T).foldlM (fun d m => do
          let a ← aggScatter (C q) m.1
          .ok (upd d m.2 a)) d = .ok (scatter (fun _ v => v) d (S.map (val p)) T) := by
      intro S
      induction S with
      | nil => intro T d _; rfl
      | cons a S ihS =>
        intro T d hS
        cases T with
        | nil => rfl
        | cons t T =>
          unfold scatter
          simp only [List.map_cons, List.zip_cons_cons, List.foldlM_cons, List.foldl_cons]
          rw [hS a (List.mem_cons_self ..)]
          simp only [Res.ok_bind]
          exact ihS T _ fun i hi => hS i (List.mem_cons_of_mem _ hi)
    rw [hz _ _ _ (h2 p (List.mem_cons_self ..))]
    simp only [Res.ok_bind]
    exact ih (fun p hp => h1 p (List.mem_cons_of_mem _ hp)) (fun p hp => h2 p (List.mem_cons_of_mem _ hp)) _

/-- the value is the one the index should have -/
def Right (C : PIS) (o : Option Nat) (a : Agg) : Prop := match o with
  | none => a = .iso
  | some i => ∃ c ∈ C, c.g = i ∧ a = .id c.loc

theorem right_unique {C : PIS} (hC : PisOk C) {o : Option Nat} {a b : Agg} (ha : Right C o a) (hb : Right C o b) : a = b := by
  cases o with
  | none => exact Eq.trans ha (Eq.symm hb)
  | some i =>
    obtain ⟨c, hc, hg, rfl⟩ := ha
    obtain ⟨d, hd, hg', rfl⟩ := hb
    rw [entry_unique hC hc hd (hg.trans hg'.symm)]

/-- Sending along right values gives right values. -/
theorem forward_right {src dst : Attr → Bool} {P : Nat} {pis C : Nat → PIS} {F : Nat → Option Nat} (hok : ∀ p, p < P → PisOk (pis p))
    (hC : ∀ p, p < P → PisOk (C p)) (hknown : ∀ p, p < P → ∀ e ∈ pis p, ∀ i, F e.g = some i → ∃ c ∈ C p, c.g = i)
    (agg : Nat → Nat → Agg) (hsrc : ∀ p, p < P → ∀ e ∈ pis p, src e.attr = true → Right (C p) (F e.g) (agg p e.loc))
    {q : Nat} (hq : q < P) (order : List Nat) (hord : ∀ p ∈ order, p < P) :
    ∃ agg', forwardAgg src dst pis C agg q order = .ok agg' ∧
      (∀ e ∈ pis q, (Right (C q) (F e.g) (agg q e.loc) ∨
        (dst e.attr = true ∧ ∃ p ∈ order, ∃ f ∈ pis p, f.g = e.g ∧ src f.attr = true)) → Right (C q) (F e.g) (agg' e.loc)) ∧
      (∀ l, (∀ e ∈ pis q, e.loc ≠ l) → agg' l = agg q l) := by
  classical
  -- the translated messages
  have hsend : ∀ p ∈ order, ∀ i ∈ sendList src dst (pis p) (pis q), ∃ e ∈ pis p, e.loc = i ∧ src e.attr = true ∧
      ∃ r ∈ pis q, r.g = e.g := by
    intro p hp i hi
    rw [sendList_eq, List.mem_map] at hi
    obtain ⟨e, he, rfl⟩ := hi
    unfold sendIdx at he
    rw [List.mem_filter] at he
    obtain ⟨he, h⟩ := he
    cases hl : lookup (pis q) e.g with
    | none => rw [hl] at h; simp at h
    | some r =>
      rw [hl] at h
      simp only [Bool.and_eq_true] at h
      obtain ⟨h1, h2⟩ := (lookup_iff (hok q hq) e.g r).mp hl
      exact ⟨e, he, rfl, h.1, r, h1, h2⟩
  have hgv : ∀ p i, ∃ gv : Option Nat × Agg, p ∈ order → ∀ e ∈ pis p, e.loc = i → src e.attr = true → (∃ r ∈ pis q, r.g = e.g) →
      aggGather (C p) (agg p i) = .ok gv.1 ∧ aggScatter (C q) gv.1 = .ok gv.2 ∧ Right (C q) (F e.g) gv.2 := by
    intro p i
    by_cases h : p ∈ order ∧ ∃ e ∈ pis p, e.loc = i ∧ src e.attr = true ∧ ∃ r ∈ pis q, r.g = e.g
    · obtain ⟨hp, e, he, rfl, hs, r, hr, hrg⟩ := h
      have hR := hsrc p (hord p hp) e he hs
      have huniq : ∀ e' ∈ pis p, e'.loc = e.loc → e' = e := fun e' he' hl =>
        List.inj_on_of_nodup_map (hok p (hord p hp)).locs he' he hl
      cases hF : F e.g with
      | none =>
        rw [hF] at hR
        refine ⟨(none, .iso), ?_⟩
        intro _ e' he' hl _ _
        rw [huniq e' he' hl, hF]
        have hR' : agg p e.loc = .iso := hR
        rw [hR']
        exact ⟨rfl, rfl, rfl⟩
      | some i =>
        rw [hF] at hR
        obtain ⟨c, hc, hg, hid⟩ := hR
        obtain ⟨d, hd, hdg⟩ := hknown q hq r hr i (by rw [hrg]; exact hF)
        refine ⟨(some i, .id d.loc), ?_⟩
        intro _ e' he' hl _ _
        rw [huniq e' he' hl, hF, hid]
        refine ⟨?_, ?_, d, hd, hdg, rfl⟩
        · unfold aggGather
          dsimp only
          rw [(pairOf_some (hC p (hord p hp))).mpr ⟨hc, rfl⟩]
          dsimp only
          rw [hg]
        · unfold aggScatter
          dsimp only
          rw [(lookup_iff (hC q hq) i d).mpr ⟨hd, hdg⟩]
    · refine ⟨(none, .iso), ?_⟩
      intro hp e he hl hs hr
      exact absurd ⟨hp, e, he, hl, hs, hr⟩ h
  choose gv hgv using hgv
  refine ⟨_, forwardAgg_eq src dst pis C agg q order (fun p i => (gv p i).1) (fun p i => (gv p i).2) ?_ ?_, ?_, ?_⟩
  · intro p hp i hi
    obtain ⟨e, he, hl, hs, hr⟩ := hsend p hp i hi
    exact (hgv p i hp e he hl hs hr).1
  · intro p hp i hi
    obtain ⟨e, he, hl, hs, hr⟩ := hsend p hp i hi
    exact (hgv p i hp e he hl hs hr).2.1
  · letI : Inhabited Agg := ⟨.iso⟩
    intro e he hcase
    rw [forward_eq _ _ _ hok _ agg hq order hord]
    have hmsg : ∀ m ∈ ((order.map fun p => (recvIdx src dst (pis q) (pis p)).map fun e =>
        (valueAt (pis p) (fun i => (gv p i).2) e.g, e.loc)).flatten), m.2 = e.loc → Right (C q) (F e.g) m.1 := by
      intro m hm hl
      obtain ⟨p, hp, e', he', f, hf, hg, hs, -, rfl⟩ := (mem_messages hok hord).1 hm
      obtain rfl : e' = e := List.inj_on_of_nodup_map (hok q hq).locs he' he hl
      have := (hgv p f.loc hp f hf rfl hs ⟨e', he', hg.symm⟩).2.2
      rw [hg] at this
      exact this
    by_cases hex : ∃ m ∈ ((order.map fun p => (recvIdx src dst (pis q) (pis p)).map fun e =>
        (valueAt (pis p) (fun i => (gv p i).2) e.g, e.loc)).flatten), m.2 = e.loc
    · obtain ⟨m, hm, hl⟩ := hex
      have hv := hmsg m hm hl
      rw [(fold_copy _ _ e.loc).2 m.1 ⟨m, hm, hl⟩ fun m' hm' hl' => right_unique (hC q hq) (hmsg m' hm' hl') hv]
      exact hv
    · rw [(fold_copy _ _ e.loc).1 fun m hm hl => hex ⟨m, hm, hl⟩]
      rcases hcase with h | ⟨hd, p, hp, f, hf, hg, hs⟩
      · exact h
      · exact absurd ⟨_, (mem_messages hok hord).2 ⟨p, hp, e, he, f, hf, hg, hs, hd, rfl⟩, rfl⟩ hex
  · letI : Inhabited Agg := ⟨.iso⟩
    intro l hl
    rw [forward_eq _ _ _ hok _ agg hq order hord]
    refine (fold_copy _ _ l).1 fun m hm h => ?_
    obtain ⟨p, hp, e', he', f, hf, hg, hs, -, rfl⟩ := (mem_messages hok hord).1 hm
    exact hl e' he' h

end Amg
end Istl
