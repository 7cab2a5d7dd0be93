import Verif.Props.C43
import Verif.Lemmas.MatMat

/-! Pattern of the coarse matrix. -/

namespace Istl
namespace Amg
open MatMat

theorem bob_conn (G : Graph) (agg : Nat → Agg) (a : Nat) (m0 : Nat → Bool) :
    BOb G (connVisitor agg) (.id a) m0 agg
      (fun _ E d => d.Pairwise (· < ·) ∧ ∀ b, b ∈ d ↔ (b = a ∨ ∃ e ∈ E, agg e.2 = .id b)) := by
  have hsame : ∀ (E : List (Nat × Nat)) (d : List Nat) (u t : Nat), (d.Pairwise (· < ·) ∧ ∀ b, b ∈ d ↔ (b = a ∨ ∃ e ∈ E, agg e.2 = .id b)) →
      (∀ b, agg t = .id b → b = a) → (d.Pairwise (· < ·) ∧ ∀ b, b ∈ d ↔ (b = a ∨ ∃ e ∈ E ++ [(u, t)], agg e.2 = .id b)) := by
    intro E d u t ⟨h1, h2⟩ ht
    refine ⟨h1, ?_⟩
    intro b
    rw [h2 b]
    constructor
    · rintro (h | ⟨e, he, h⟩)
      · exact Or.inl h
      · exact Or.inr ⟨e, by simp [he], h⟩
    · rintro (h | ⟨e, he, h⟩)
      · exact Or.inl h
      · rcases List.mem_append.mp he with he | he
        · exact Or.inr ⟨e, he, h⟩
        · simp only [List.mem_singleton] at he
          subst he
          exact Or.inl (ht b h)
  refine ⟨?_, ?_, ?_, ?_, ?_⟩
  · intros; rfl
  · intros; rfl
  · intro vis E d u t h _ _ _ _ ht
    refine hsame E d u t h ?_
    intro b hb
    rw [ht] at hb
    simpa using hb.symm
  · intro vis E d u t h _ _ _ ht
    refine hsame E d u t h ?_
    intro b hb
    have ht : agg t = .id a := ht
    rw [ht] at hb
    simpa using hb.symm
  · intro vis E d u t h _ _ ht
    have ht : agg t ≠ .id a := ht
    simp only [connVisitor]
    cases hag : agg t with
    | unagg => exact hsame E d u t h (by intro b hb; rw [hag] at hb; cases hb)
    | iso => exact hsame E d u t h (by intro b hb; rw [hag] at hb; cases hb)
    | id b0 =>
      dsimp only
      obtain ⟨h1, h2⟩ := setInsert_spec b0 d h.1
      refine ⟨h1, ?_⟩
      intro b
      rw [h2 b, h.2 b]
      constructor
      · rintro (h | h | ⟨e, he, h⟩)
        · exact Or.inr ⟨(u, t), by simp, by rw [h]; exact hag⟩
        · exact Or.inl h
        · exact Or.inr ⟨e, by simp [he], h⟩
      · rintro (h | ⟨e, he, h⟩)
        · exact Or.inr (Or.inl h)
        · rcases List.mem_append.mp he with he | he
          · exact Or.inr (Or.inr ⟨e, he, h⟩)
          · simp only [List.mem_singleton] at he
            subst he
            rw [hag] at h
            exact Or.inl (by simpa using h.symm)

/-- rows finished so far -/
structure CInv (G : Graph) (agg : Nat → Agg) (i : Nat) (s : ConSt) : Prop where
  len : s.rows.length = numBelow agg i
  iso : ∀ v, agg v = .iso → s.mark v = true
  done : ∀ f v, v < G.n → IsFirst agg f → agg v = agg f → (s.mark v = true ↔ f < i)
  rows : ∀ (a : Nat) (r : List Nat), s.rows[a]? = some r → r.Pairwise (· < ·) ∧ ∀ b, b ∈ r ↔ (b = a ∨ Coupled G agg a b)

theorem examine_step (G : Graph) (hG : G.WF) (agg : Nat → Agg) (hc : ConnectedAggs G agg) (hn : Numbered G agg)
    (fuel : Nat) (hf : G.n + 1 ≤ fuel) (i : Nat) (hi : i < G.n) (s : ConSt) (h : CInv G agg i s) :
    ∃ s', examineStep G fuel agg (numBelow agg G.n) s i = some (.ok s') ∧ CInv G agg (i + 1) s' := by
  unfold examineStep
  by_cases hiso : agg i = .iso
  · rw [if_pos (h.iso i hiso)]
    have hnf : ¬ IsFirst agg i := fun hc => hc.1 hiso
    refine ⟨s, rfl, ?_, h.iso, ?_, h.rows⟩
    · rw [numBelow_succ, if_neg hnf]; exact h.len
    · intro f v hv hF e
      have : f ≠ i := fun hc => hnf (hc ▸ hF)
      rw [h.done f v hv hF e]; omega
  · obtain ⟨f, hfi, hF, e⟩ := exists_first agg i hiso
    rcases Nat.lt_or_ge f i with hlt | hge
    · rw [if_pos ((h.done f i hi hF e).mpr hlt)]
      have hnf : ¬ IsFirst agg i := fun hc => by have := first_unique hF hc e.symm; omega
      refine ⟨s, rfl, ?_, h.iso, ?_, h.rows⟩
      · rw [numBelow_succ, if_neg hnf]; exact h.len
      · intro f v hv hF e
        have : f ≠ i := fun hc => hnf (hc ▸ hF)
        rw [h.done f v hv hF e]; omega
    · obtain rfl : f = i := by omega
      have hmf : s.mark f = false := by
        by_contra hcon
        have := (h.done f f hi hF rfl).mp (by simpa using hcon)
        omega
      rw [if_neg (by simp [hmf])]
      have hid := hn f hi hF
      have hcls : ∀ t, t < G.n → ((agg t = agg f ∧ s.mark t = false) ↔ agg t = agg f) := by
        intro t ht
        refine ⟨fun h => h.1, fun e' => ⟨e', ?_⟩⟩
        by_contra hcon
        have := (h.done f t ht hF e').mp (by simpa using hcon)
        omega
      have hlen : s.rows.length < numBelow agg G.n := by
        rw [h.len]; exact numBelow_lt agg hF hi
      rw [hid]
      dsimp only
      rw [if_pos hlen]
      obtain ⟨hi1, hi2⟩ := setInsert_spec (numBelow agg f) [] List.Pairwise.nil
      obtain ⟨vis, d, sph, mark', e1, hm', hvis, hlt, hJ⟩ := bfs_spec (start := f) (m0 := s.mark) (A0 := agg) hG hi hmf
        (bob_conn G agg (numBelow agg f) s.mark) (setInsert (numBelow agg f) []) (fun _ => rfl)
        ⟨hi1, by intro b; rw [hi2]; simp⟩ fuel hf
      have hvis' : ∀ t, t < G.n → (t ∈ vis ↔ agg t = agg f) := by
        intro t ht
        rw [hvis t]
        constructor
        · intro hr
          rcases Relation.ReflTransGen.cases_tail hr with hr | ⟨u, _, hs⟩
          · rw [hr]
          · rw [hid]; exact hs.2.1
        · intro e'
          have hr := hc f t hi ht hF e'
          have : ∀ w, Relation.ReflTransGen (fun u t => t ∈ G.adj u ∧ agg t = agg f) f w →
              Relation.ReflTransGen (BStep G (.id (numBelow agg f)) agg s.mark) f w ∧ w < G.n := by
            intro w hw
            induction hw with
            | refl => exact ⟨.refl, hi⟩
            | tail _ hs ih =>
              have hl := hG _ ih.2 _ hs.1
              have := (hcls _ hl).mpr hs.2
              exact ⟨ih.1.tail ⟨hs.1, by rw [← hid]; exact this.1, this.2⟩, hl⟩
          exact (this t hr).1
      unfold constructConn
      rw [hid, e1]
      refine ⟨⟨mark', s.rows ++ [d]⟩, rfl, ?_, ?_, ?_, ?_⟩
      · dsimp only
        rw [List.length_append, numBelow_succ, if_pos hF, h.len]; rfl
      · intro v hv
        exact (hm' v).mpr (Or.inl (h.iso v hv))
      · intro g v hv hG' e'
        dsimp only
        rw [hm' v, h.done g v hv hG' e', hvis' v hv]
        constructor
        · rintro (h1 | h1)
          · omega
          · have := first_unique hG' hF (by rw [← e', h1]); omega
        · intro h1
          by_cases hgf : g = f
          · subst hgf; exact Or.inr e'
          · exact Or.inl (by omega)
      · intro a r hr
        dsimp only at hr
        by_cases ha : a < s.rows.length
        · rw [List.getElem?_append_left ha] at hr
          exact h.rows a r hr
        · rw [List.getElem?_append_right (by omega)] at hr
          have ha' : a = s.rows.length := by
            by_contra hcon
            rw [List.getElem?_eq_none (by simp; omega)] at hr
            cases hr
          subst ha'
          simp at hr
          subst hr
          refine ⟨hJ.1, ?_⟩
          intro b
          rw [hJ.2 b, h.len]
          refine or_congr Iff.rfl ?_
          unfold edgeList Coupled
          constructor
          · rintro ⟨e, he, hb⟩
            obtain ⟨u, hu, hut⟩ := List.mem_flatMap.mp he
            obtain ⟨t, ht, rfl⟩ := List.mem_map.mp hut
            exact ⟨u, t, hlt u hu, by rw [(hvis' u (hlt u hu)).mp hu, hid], ht, hb⟩
          · rintro ⟨u, t, hu, hua, ht, hb⟩
            exact ⟨(u, t), List.mem_flatMap.mpr ⟨u, (hvis' u hu).mpr (by rw [hua, hid]), List.mem_map.mpr ⟨t, ht, rfl⟩⟩, hb⟩

theorem examine_loop (G : Graph) (hG : G.WF) (agg : Nat → Agg) (hc : ConnectedAggs G agg) (hn : Numbered G agg)
    (fuel : Nat) (hf : G.n + 1 ≤ fuel) : ∀ (len i : Nat) (s : ConSt), i + len = G.n → CInv G agg i s →
    ∃ s', examineLoop G fuel agg (numBelow agg G.n) (List.range' i len) s = some (.ok s') ∧ CInv G agg G.n s'
  | 0, i, s, hi, h => by
    obtain rfl : i = G.n := by omega
    exact ⟨s, rfl, h⟩
  | len + 1, i, s, hi, h => by
    obtain ⟨s', e, h'⟩ := examine_step G hG agg hc hn fuel hf i (by omega) s h
    obtain ⟨s'', e', h''⟩ := examine_loop G hG agg hc hn fuel hf len (i + 1) s' (by omega) h'
    refine ⟨s'', ?_, h''⟩
    rw [List.range'_succ]
    unfold examineLoop
    rw [e]
    exact e'

theorem buildPattern_spec (G : Graph) (hG : G.WF) (agg : Nat → Agg) (hc : ConnectedAggs G agg) (hn : Numbered G agg)
    (fuel : Nat) (hf : G.n + 1 ≤ fuel) :
    ∃ rows, buildPattern G fuel agg (numBelow agg G.n) = some (.ok rows) ∧ rows.length = numBelow agg G.n ∧
      ∀ (a : Nat) (r : List Nat), rows[a]? = some r → r.Pairwise (· < ·) ∧ ∀ b, b ∈ r ↔ (b = a ∨ Coupled G agg a b) := by
  obtain ⟨s, e, h⟩ := examine_loop G hG agg hc hn fuel hf G.n 0 ⟨fun v => decide (agg v = .iso), []⟩ (by omega) (by
    refine ⟨by simp [numBelow], by intro v hv; simp [hv], ?_, by intro a r hr; simp at hr⟩
    intro f v _ hF e
    have : agg v ≠ .iso := by rw [e]; exact hF.1
    simp [this])
  refine ⟨s.rows, ?_, h.len, h.rows⟩
  unfold buildPattern
  rw [List.range_eq_range', e]
  rfl

end Amg
end Istl
