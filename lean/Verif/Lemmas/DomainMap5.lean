import Verif.Lemmas.DomainMap4

/-! # Lemmas: the graph of the processes -/

namespace Istl
namespace Par
open Amg

variable {P : Nat} {pis : Nat → PIS} {n : Nat → Nat} {G : Finset Nat}

theorem exists_ownerFun (h : Decomp P pis n G) (dest : Nat → Nat) : ∃ W : Nat → Nat, ∀ p, p < P → ∀ e ∈ pis p, e.attr = .owner → W e.g = dest p := by
  classical
  have hex : ∀ g, ∃ w, ∀ p, p < P → ∀ e ∈ pis p, e.attr = .owner → e.g = g → w = dest p := by
    intro g
    by_cases hg : ∃ p, p < P ∧ ∃ e ∈ pis p, e.attr = .owner ∧ e.g = g
    · obtain ⟨p, hp, e, he, ha, hge⟩ := hg
      refine ⟨dest p, fun q hq f hf haf hgf => ?_⟩
      rw [h.unique p q hp hq e he f hf ha haf (by rw [hge, hgf])]
    · exact ⟨0, fun p hp e he ha hge => absurd ⟨p, hp, e, he, ha, hge⟩ hg⟩
  choose W hW using hex
  exact ⟨W, fun p hp e he ha => hW e.g p hp e he ha rfl⟩

theorem realpart_val (h : Holed P pis n G) {G' : Finset Nat} (hd : Decomp P (fillIndexSetHoles P n pis) n G') {dest W : Nat → Nat}
    (hW : ∀ p, p < P → ∀ e ∈ fillIndexSetHoles P n pis p, e.attr = .owner → W e.g = dest p) {q : Nat} (hq : q < P) {order : List Nat}
    (ho : order.Perm ((List.range P).filter (· ≠ q))) :
    (realpart n pis dest q order).length = n q ∧ ∀ e ∈ fillIndexSetHoles P n pis q, (realpart n pis dest q order)[e.loc]? = some (W e.g) := by
  obtain ⟨c1, c2⟩ := C36_copyOwnerToAll h.ok h.unique (fun p _ => dest p) (fun p _ => dest p) hq order ho
  have hold : ∀ p, p < P → ∀ e ∈ pis p, e ∈ fillIndexSetHoles P n pis p := fun p hp e he => ((h.mem_fill hp).2 e).2 (.inl he)
  refine ⟨by simp [realpart], fun e he => ?_⟩
  unfold realpart
  rw [List.getElem?_map, List.getElem?_range (hd.bounded q hq e he), Option.map_some]
  congr 1
  rcases ((h.mem_fill hq).2 e).1 he with he' | ⟨ha, i, hi, _⟩
  · obtain ⟨p, hp, r, hr, hg, har⟩ := h.owned e.g (h.inG q hq e he')
    rw [← hg, hW p hp r (hold p hp r hr) har]
    by_cases hpq : p = q
    · subst hpq
      rw [c2 e.loc]
      intro f hf hfl p' hp' hne r' hr' hg' har'
      have hef : f = e := List.inj_on_of_nodup_map (h.ok p hp).locs hf he' hfl
      subst hef
      exact hne (h.unique p' p hp' hp r' hr' r hr har' har (by rw [hg', hg]))
    · exact c1 e he' p hp hpq r hr hg har
  · rw [hW q hq e he ha, c2 e.loc]
    intro f hf hfl
    exact absurd hfl ((mem_holeList.1 (List.mem_of_getElem? hi)).2 f hf)

theorem commGraphRepartition_ok {gr : Nat → Graph} (h : Holed P pis (fun p => (gr p).n) G) (hwf : ∀ p, p < P → (gr p).WF) {dest : Nat → Nat}
    (hdest : ∀ p, p < P → dest p < P) {order : Nat → List Nat} (ho : ∀ q, q < P → (order q).Perm ((List.range P).filter (· ≠ q)))
    {G' : Finset Nat} (hd : Decomp P (fillIndexSetHoles P (fun p => (gr p).n) pis) (fun p => (gr p).n) G') :
    ∃ W parts, (∀ p, p < P → ∀ e ∈ fillIndexSetHoles P (fun p => (gr p).n) pis p, e.attr = .owner → W e.g = dest p) ∧
      Assign P (fillIndexSetHoles P (fun p => (gr p).n) pis) (fun p => (gr p).n) G' gr parts W ∧
      ∀ q order', commGraphRepartition P gr pis dest q order order' =
        buildCommunication P gr parts (fillIndexSetHoles P (fun p => (gr p).n) pis) q order' := by
  obtain ⟨W, hW⟩ := exists_ownerFun hd dest
  refine ⟨W, fun p => realpart (fun p => (gr p).n) pis dest p (order p), hW, ⟨hd, hwf, fun _ _ => rfl, ?_, ?_, ?_⟩, fun q order' => rfl⟩
  · exact fun p hp => (realpart_val h hd hW hp (ho p hp)).1
  · exact fun p hp => (realpart_val h hd hW hp (ho p hp)).2
  · intro g hg
    obtain ⟨p, hp, e, he, rfl, ha⟩ := hd.owned g hg
    rw [hW p hp e he ha]
    exact hdest p hp

/-! ## The arrays -/

theorem gathered_length (nb : Nat → List Nat) : (gatheredXadj P nb).length = 2 * P := by
  unfold gatheredXadj
  induction P with
  | zero => rfl
  | succ P ih => rw [List.range_succ, List.flatMap_append, List.length_append, ih]; simp; omega

theorem gathered_odd (nb : Nat → List Nat) {i : Nat} (hi : i < P) :
    (gatheredXadj P nb)[1 + i + i]? = some (nb i).length := by
  induction P with
  | zero => omega
  | succ P ih =>
    have hs : gatheredXadj (P + 1) nb = gatheredXadj P nb ++ [0, (nb P).length] := by
      unfold gatheredXadj; rw [List.range_succ, List.flatMap_append]; simp
    rw [hs]
    have hl := gathered_length (P := P) nb
    by_cases hiP : i < P
    · rw [List.getElem?_append_left (by omega)]; exact ih hiP
    · have : i = P := by omega
      subst this
      rw [List.getElem?_append_right (by omega), hl]
      have : 1 + i + i - 2 * i = 1 := by omega
      rw [this]; rfl

theorem gathered_zero (nb : Nat → List Nat) (h0 : 0 < P) : (gatheredXadj P nb)[0]? = some 0 := by
  obtain ⟨k, rfl⟩ : ∃ k, P = k + 1 := ⟨P - 1, by omega⟩
  unfold gatheredXadj
  rw [List.range_succ_eq_map]
  rfl

/-- The number of edges of the processes before `p`. -/
def edgesBefore (nb : Nat → List Nat) (p : Nat) : Nat := ∑ x ∈ Finset.range p, (nb x).length

theorem shift_ok (nb : Nat → List Nat) (h0 : 0 < P) : ∀ k, k + 1 ≤ P →
    ∃ x, (List.range k).foldlM (fun x i => shiftStep x (i + 1)) (gatheredXadj P nb) = Res.ok x ∧ x.length = 2 * P ∧
      (∀ i, i ≤ k + 1 → x[i]? = some (edgesBefore nb i)) ∧ ∀ i, k < i → i < P → x[1 + i + i]? = some (nb i).length := by
  intro k
  induction k with
  | zero =>
    intro _
    refine ⟨_, rfl, gathered_length nb, fun i hi => ?_, fun i _ hi => gathered_odd nb hi⟩
    rcases Nat.lt_or_ge i 1 with h | h
    · have : i = 0 := by omega
      subst this
      rw [gathered_zero nb h0]; simp [edgesBefore]
    · have : i = 1 := by omega
      subst this
      have := gathered_odd nb h0
      simpa [edgesBefore] using this
  | succ k ih =>
    intro hk
    obtain ⟨x, e, h1, h2, h3⟩ := ih (by omega)
    have hr1 := h2 (k + 1) (by omega)
    have hr2 := h3 (k + 1) (by omega) (by omega)
    have hwl : 1 + (k + 1) < x.length := by omega
    refine ⟨x.set (1 + (k + 1)) ((nb (k + 1)).length + edgesBefore nb (k + 1)), ?_, by simpa using h1, fun i hi => ?_, fun i hi hiP => ?_⟩
    · rw [List.range_succ, List.foldlM_append, e, Res.ok_bind, List.foldlM_cons]
      unfold shiftStep
      rw [rd_ok.2 hr1, Res.ok_bind, rd_ok.2 hr2, Res.ok_bind, wr_lt _ hwl]
      rfl
    · by_cases hik : i = 1 + (k + 1)
      · subst hik
        rw [List.getElem?_set_self hwl]
        unfold edgesBefore
        rw [show 1 + (k + 1) = (k + 1) + 1 by omega, Finset.sum_range_succ _ (k + 1), Nat.add_comm]
      · rw [List.getElem?_set_ne (by omega)]
        exact h2 i (by omega)
    · rw [List.getElem?_set_ne (by omega)]
      exact h3 i (by omega) hiP

theorem flat_length (nb : Nat → List Nat) (P : Nat) : ((List.range P).flatMap nb).length = ∑ x ∈ Finset.range P, (nb x).length := by
  induction P with
  | zero => rfl
  | succ P ih => rw [List.range_succ, List.flatMap_append, List.length_append, ih, Finset.sum_range_succ]; simp

theorem flat_take (nb : Nat → List Nat) : ∀ P, ∀ p, p < P →
    ((((List.range P).flatMap nb).drop (edgesBefore nb p)).take (edgesBefore nb (p + 1) - edgesBefore nb p)) = nb p := by
  have hlen : ∀ P, ((List.range P).flatMap nb).length = edgesBefore nb P := flat_length nb
  intro P p hp
  have h1 : List.range P = List.range (p + 1) ++ (List.range (P - (p + 1))).map (p + 1 + ·) := by
    have : P = (p + 1) + (P - (p + 1)) := by omega
    conv_lhs => rw [this]
    rw [List.range_add]
  rw [h1, List.flatMap_append, List.range_succ, List.flatMap_append, List.append_assoc, ← hlen p, List.drop_left]
  have h2 : edgesBefore nb (p + 1) = edgesBefore nb p + (nb p).length := by unfold edgesBefore; rw [Finset.sum_range_succ]
  rw [h2, hlen p, Nat.add_sub_cancel_left]
  simp only [List.flatMap_cons, List.flatMap_nil, List.append_nil]
  rw [List.take_left]

/-! ## `isValidGraph` -/

theorem validTargets_ok (gno : Nat) {adj : List Nat} {a : Nat} : ∀ k, a + k ≤ adj.length →
    ∃ ok, (List.range k).foldlM (fun ok k => do
      let t ← rd adj (a + k)
      .ok (if t > gno then false else ok)) true = Res.ok ok ∧ (ok = true ↔ ∀ t ∈ (adj.drop a).take k, t ≤ gno) := by
  intro k
  induction k with
  | zero => intro _; exact ⟨true, rfl, by simp⟩
  | succ k ih =>
    intro hk
    obtain ⟨ok, e, h1⟩ := ih (by omega)
    have hl : a + k < adj.length := by omega
    have ht : (adj.drop a).take (k + 1) = (adj.drop a).take k ++ [adj[a + k]] := by
      rw [List.take_add_one, List.getElem?_drop, List.getElem?_eq_getElem hl]; rfl
    refine ⟨if adj[a + k] > gno then false else ok, ?_, ?_⟩
    · rw [List.range_succ, List.foldlM_append, e, Res.ok_bind, List.foldlM_cons, rd_lt hl, Res.ok_bind, Res.ok_bind]
      rfl
    · rw [ht]
      by_cases hgt : adj[a + k] > gno
      · rw [if_pos hgt]
        constructor
        · intro hh; exact absurd hh (by simp)
        · intro hh
          have := hh adj[a + k] (by simp)
          omega
      · rw [if_neg hgt, h1]
        constructor
        · intro hh t ht'
          rcases List.mem_append.1 ht' with h | h
          · exact hh t h
          · rw [List.mem_singleton] at h; omega
        · exact fun hh t ht' => hh t (List.mem_append_left _ ht')

end Par
end Istl
