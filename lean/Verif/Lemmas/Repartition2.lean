import Verif.Lemmas.Repartition
import Verif.Lemmas.Selection5

/-! # Lemmas: the new index set -/

namespace Istl
namespace Par
open Amg MatMat

namespace Assign
variable {P : Nat} {old : Nat → PIS} {osz : Nat → Nat} {G : Finset Nat} {gr : Nat → Graph} {parts : Nat → List Nat} {W : Nat → Nat}

theorem adj (h : Assign P old osz G gr parts W) {p : Nat} (hp : p < P) : ∀ e ∈ old p, ∀ t ∈ (gr p).adj e.loc, ∃ f ∈ old p, f.loc = t := by
  intro e he t ht
  refine h.dec.covered p hp t ?_
  rw [← h.n p hp]
  exact h.wf p hp e.loc (by rw [h.n p hp]; exact h.dec.bounded p hp e he) t ht

/-- An edge that makes `x` a candidate for a copy. -/
def Cand (old : PIS) (g : Graph) (W : Nat → Nat) (q : Nat) (f : Idx) : Prop :=
  ∃ e ∈ old, e.attr = .owner ∧ W e.g = q ∧ f ∈ old ∧ f.loc ∈ g.adj e.loc ∧ (W f.g ≠ q ∨ f.attr ≠ .owner)

theorem receive (h : Assign P old osz G gr parts W) (q : Nat) : ∀ (order : List Nat), (∀ p ∈ order, p < P) → ∀ s : Mine,
    s.ovl.Pairwise (· < ·) → s.procs.Pairwise (· < ·) →
    ∃ m, order.foldlM (fun s p => do
        let m ← getOwnerOverlapVec (gr p) (parts p) (old p) q
        saveRecvBuf (createSendBuf m) p s) s = .ok m ∧ m.ovl.Pairwise (· < ·) ∧ m.procs.Pairwise (· < ·) ∧
      m.owner = s.owner ++ order.flatMap (fun p => (going W q (old p)).map fun e => (e.g, p)) ∧
      (∀ x, x ∈ m.ovl ↔ x ∈ s.ovl ∨ ∃ p ∈ order, ∃ f, Cand (old p) (gr p) W q f ∧ f.g = x) ∧
      (∀ x, x ∈ m.procs ↔ x ∈ s.procs ∨ ∃ p ∈ order, ∃ f, Cand (old p) (gr p) W q f ∧ W f.g = x)
  | [], _, s, h1, h2 => ⟨s, rfl, h1, h2, by simp, by simp, by simp⟩
  | p :: order, hlt, s, h1, h2 => by
    have hp := hlt p (List.mem_cons_self ..)
    obtain ⟨r, e1, k1, c1, a1, b1⟩ := ownerFold_ok (G := gr p) (toPe := q) (h.dec.ok p hp) (h.val p hp) (h.adj hp) (old p) ([], ⟨[], []⟩)
      (fun _ he => he) ⟨List.Pairwise.nil, List.Pairwise.nil⟩
    obtain ⟨i1, i2⟩ := foldInsert_spec r.2.ovl s.ovl h1
    obtain ⟨j1, j2⟩ := foldInsert_spec r.2.procs s.procs h2
    obtain ⟨m, e2, g1, g2, g3, g4, g5⟩ := receive h q order (fun p' hp' => hlt p' (List.mem_cons_of_mem _ hp'))
      ⟨s.owner ++ r.1.map fun g => (g, p), r.2.ovl.foldl (fun o g => setInsert g o) s.ovl,
      r.2.procs.foldl (fun o n => setInsert n o) s.procs⟩ i1 j1
    have hcand : ∀ (Q : Idx → Prop), (∃ e ∈ old p, e.attr = .owner ∧ W e.g = q ∧
        ∃ f ∈ old p, f.loc ∈ (gr p).adj e.loc ∧ (W f.g ≠ q ∨ f.attr ≠ .owner) ∧ Q f) ↔ ∃ f, Cand (old p) (gr p) W q f ∧ Q f := by
      intro Q
      constructor
      · rintro ⟨e, he, ha, hw, f, hf, hl, hc, hQ⟩; exact ⟨f, ⟨e, he, ha, hw, hf, hl, hc⟩, hQ⟩
      · rintro ⟨f, ⟨e, he, ha, hw, hf, hl, hc⟩, hQ⟩; exact ⟨e, he, ha, hw, f, hf, hl, hc, hQ⟩
    refine ⟨m, ?_, g1, g2, ?_, fun x => ?_, fun x => ?_⟩
    · rw [List.foldlM_cons]
      unfold getOwnerOverlapVec at e2 ⊢
      rw [e1, Res.ok_bind, saveRecvBuf_ok, Res.ok_bind]
      exact e2
    · rw [g3, c1, List.flatMap_cons]
      simp only [List.nil_append, List.map_map, List.append_assoc]
      rfl
    · rw [g4 x]
      dsimp only
      rw [i2, a1, hcand (fun f => f.g = x)]
      constructor
      · rintro (((hh | hh) | hh) | ⟨p', hp', hh⟩)
        · cases hh
        · exact .inr ⟨p, List.mem_cons_self .., hh⟩
        · exact .inl hh
        · exact .inr ⟨p', List.mem_cons_of_mem _ hp', hh⟩
      · rintro (hh | ⟨p', hp', hh⟩)
        · exact .inl (.inr hh)
        · rcases List.mem_cons.1 hp' with rfl | hp'
          · exact .inl (.inl (.inr hh))
          · exact .inr ⟨p', hp', hh⟩
    · rw [g5 x]
      dsimp only
      rw [j2, b1, hcand (fun f => W f.g = x)]
      constructor
      · rintro (((hh | hh) | hh) | ⟨p', hp', hh⟩)
        · cases hh
        · exact .inr ⟨p, List.mem_cons_self .., hh⟩
        · exact .inl hh
        · exact .inr ⟨p', List.mem_cons_of_mem _ hp', hh⟩
      · rintro (hh | ⟨p', hp', hh⟩)
        · exact .inl (.inr hh)
        · rcases List.mem_cons.1 hp' with rfl | hp'
          · exact .inl (.inl (.inr hh))
          · exact .inr ⟨p', hp', hh⟩

theorem goes (h : Assign P old osz G gr parts W) {p q : Nat} (hp : p < P) {e : Idx} (he : e ∈ old p) (hw : W e.g = q) : q ∈ parts p := by
  have := h.val p hp e he
  rw [hw] at this
  exact List.mem_of_getElem? this

end Assign

instance : Std.Total pairLe := ⟨fun a b => by unfold pairLe; omega⟩
instance : IsTrans (Nat × Nat) pairLe := ⟨fun a b c => by unfold pairLe; omega⟩
instance : Std.Total idxLe := ⟨fun a b => by unfold idxLe; omega⟩
instance : IsTrans Idx idxLe := ⟨fun a b c => by unfold idxLe; omega⟩

theorem mergeVec_eq : ∀ (set v : List Nat), set.Pairwise (· < ·) → v.Pairwise (· < ·) →
    mergeVec v set = set.filter fun x => x ∉ v
  | [], v, _, _ => by simp [mergeVec]
  | s :: set, v, hs, hv => by
    obtain ⟨hs1, hs2⟩ := List.pairwise_cons.1 hs
    have hv' : (v.dropWhile fun x => decide (x < s)).Pairwise (· < ·) := hv.sublist (List.dropWhile_sublist _)
    have hmem : ∀ x, s ≤ x → (x ∈ v.dropWhile (fun x => decide (x < s)) ↔ x ∈ v) := by
      intro x hx
      constructor
      · exact fun h => (List.dropWhile_sublist _).subset h
      · intro h
        rw [← List.takeWhile_append_dropWhile (p := fun x => decide (x < s)) (l := v)] at h
        rcases List.mem_append.1 h with h | h
        · have := List.mem_takeWhile_imp h
          simp at this; omega
        · exact h
    have hrest : ∀ w, (w = v.dropWhile fun x => decide (x < s)) → mergeVec w set = set.filter fun x => x ∉ v := by
      intro w hw
      rw [hw, mergeVec_eq set _ hs2 hv']
      refine List.filter_congr fun x hx => ?_
      have := hmem x (le_of_lt (hs1 x hx))
      simp only [decide_not, this]
    rw [mergeVec]
    cases hd : v.dropWhile (fun x => decide (x < s)) with
    | nil =>
      have : s ∉ v := fun h => by rw [← hmem s (le_refl _), hd] at h; cases h
      dsimp only
      rw [hrest [] hd.symm, List.filter_cons, if_pos (by simpa using this)]
    | cons x r =>
      dsimp only
      have hx : s ≤ x := by
        have := List.head_dropWhile_not (fun x => decide (x < s)) (w := by rw [hd]; simp) (l := v)
        simp only [hd, List.head_cons] at this
        simpa using this
      by_cases hxs : x = s
      · rw [if_pos hxs, hrest _ hd.symm, List.filter_cons, if_neg]
        have : s ∈ v := by rw [← hmem s (le_refl _), hd, hxs]; exact List.mem_cons_self ..
        simpa using this
      · have hn : s ∉ v := by
          rw [← hmem s (le_refl _), hd]
          rw [hd] at hv'
          intro hh
          rcases List.mem_cons.1 hh with hh | hh
          · exact hxs hh.symm
          · have := (List.pairwise_cons.1 hv').1 s hh
            omega
        rw [if_neg hxs, hrest _ hd.symm, List.filter_cons, if_pos (by simpa using hn)]

theorem mem_ownerIdx {L : List (Nat × Nat)} {e : Idx} : e ∈ ownerIdx L ↔ ∃ p, L[e.loc]? = some (e.g, p) ∧ e.attr = .owner := by
  unfold ownerIdx
  rw [List.mem_map]
  constructor
  · rintro ⟨⟨⟨g, p⟩, i⟩, hx, rfl⟩
    exact ⟨p, List.mk_mem_zipIdx_iff_getElem?.1 hx, rfl⟩
  · rintro ⟨p, hx, ha⟩
    refine ⟨((e.g, p), e.loc), List.mk_mem_zipIdx_iff_getElem?.2 hx, ?_⟩
    cases e
    simp_all

theorem mem_copyIdx {C : List Nat} {k : Nat} {e : Idx} : e ∈ copyIdx C k ↔ k ≤ e.loc ∧ C[e.loc - k]? = some e.g ∧ e.attr = .copy := by
  unfold copyIdx
  rw [List.mem_map]
  constructor
  · rintro ⟨⟨g, i⟩, hx, rfl⟩
    obtain ⟨h1, h2⟩ := List.mk_mem_zipIdx_iff_le_and_getElem?_sub.1 hx
    exact ⟨h1, h2, rfl⟩
  · rintro ⟨h1, h2, ha⟩
    refine ⟨(e.g, e.loc), List.mk_mem_zipIdx_iff_le_and_getElem?_sub.2 ⟨h1, h2⟩, ?_⟩
    cases e
    simp_all

theorem ownerIdx_g (L : List (Nat × Nat)) : (ownerIdx L).map (fun e => e.g) = L.map Prod.fst := by
  unfold ownerIdx
  rw [List.map_map]
  have : ((fun e : Idx => e.g) ∘ fun x : (Nat × Nat) × Nat => (⟨x.1.1, x.2, .owner⟩ : Idx)) = Prod.fst ∘ Prod.fst := rfl
  rw [this, ← List.map_map, List.zipIdx_map_fst]

theorem copyIdx_g (C : List Nat) (k : Nat) : (copyIdx C k).map (fun e => e.g) = C := by
  unfold copyIdx
  rw [List.map_map]
  have : ((fun e : Idx => e.g) ∘ fun x : Nat × Nat => (⟨x.1, x.2, .copy⟩ : Idx)) = Prod.fst := rfl
  rw [this, List.zipIdx_map_fst]

theorem ownerIdx_loc (L : List (Nat × Nat)) : (ownerIdx L).map (fun e => e.loc) = List.range L.length := by
  unfold ownerIdx
  rw [List.map_map]
  have : ((fun e : Idx => e.loc) ∘ fun x : (Nat × Nat) × Nat => (⟨x.1.1, x.2, .owner⟩ : Idx)) = Prod.snd := rfl
  rw [this, List.zipIdx_map_snd, List.range_eq_range']

theorem copyIdx_loc (C : List Nat) (k : Nat) : (copyIdx C k).map (fun e => e.loc) = List.range' k C.length := by
  unfold copyIdx
  rw [List.map_map]
  have : ((fun e : Idx => e.loc) ∘ fun x : Nat × Nat => (⟨x.1, x.2, .copy⟩ : Idx)) = Prod.snd := rfl
  rw [this, List.zipIdx_map_snd]

/-- The index set from sorted owners `L` and copies `C`. -/
theorem idxSort_spec (L : List (Nat × Nat)) (C : List Nat) (hL : (L.map Prod.fst).Pairwise (· < ·)) (hC : C.Pairwise (· < ·))
    (hd : ∀ x ∈ C, x ∉ L.map Prod.fst) :
    let N := (ownerIdx L ++ copyIdx C L.length).insertionSort idxLe
    PisOk N ∧ N.length = L.length + C.length ∧
    ∀ e, e ∈ N ↔ (e.attr = .owner ∧ ∃ p, L[e.loc]? = some (e.g, p)) ∨ (e.attr = .copy ∧ L.length ≤ e.loc ∧ C[e.loc - L.length]? = some e.g) := by
  intro N
  have hperm : N.Perm (ownerIdx L ++ copyIdx C L.length) := List.perm_insertionSort _ _
  have hgs : (N.map fun e => e.g).Nodup := by
    rw [(hperm.map _).nodup_iff, List.map_append, ownerIdx_g, copyIdx_g, List.nodup_append]
    refine ⟨hL.imp fun h => ne_of_lt h, hC.imp fun h => ne_of_lt h, ?_⟩
    rintro a ha b hb rfl
    exact hd a hb ha
  have hlocs : (N.map fun e => e.loc).Nodup := by
    rw [(hperm.map _).nodup_iff, List.map_append, ownerIdx_loc, copyIdx_loc, List.range_eq_range']
    have := List.range'_append (s := 0) (m := L.length) (n := C.length) (step := 1)
    simp only [Nat.zero_add, Nat.one_mul] at this
    rw [this]
    exact List.nodup_range'
  refine ⟨⟨?_, hlocs⟩, ?_, ?_⟩
  · have h1 : N.Pairwise idxLe := List.pairwise_insertionSort _ _
    have h2 : N.Pairwise fun a b => a.g ≠ b.g := List.pairwise_map.1 hgs
    refine (h1.and h2).imp ?_
    rintro a b ⟨x, y⟩
    exact lt_of_le_of_ne x y
  · rw [hperm.length_eq, List.length_append]
    unfold ownerIdx copyIdx
    simp
  · intro e
    rw [hperm.mem_iff, List.mem_append, mem_ownerIdx, mem_copyIdx]
    constructor
    · rintro (⟨p, h1, h2⟩ | ⟨h1, h2, h3⟩)
      · exact .inl ⟨h2, p, h1⟩
      · exact .inr ⟨h3, h1, h2⟩
    · rintro (⟨h2, p, h1⟩ | ⟨h3, h1, h2⟩)
      · exact .inl ⟨p, h1, h2⟩
      · exact .inr ⟨h1, h2, h3⟩

end Par
end Istl
