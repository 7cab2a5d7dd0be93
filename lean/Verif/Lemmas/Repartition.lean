import Verif.Spec.Repartition
import Verif.Lemmas.Redistribute3

/-! # Lemmas: whom to send to and to receive from; the messages of `buildCommunication` -/

namespace Istl
namespace Par
open Amg MatMat

/-! ## Sets -/

theorem foldInsert_spec : ∀ (l s : List Nat), s.Pairwise (· < ·) →
    (l.foldl (fun s p => setInsert p s) s).Pairwise (· < ·) ∧ ∀ x, x ∈ l.foldl (fun s p => setInsert p s) s ↔ x ∈ l ∨ x ∈ s
  | [], s, h => ⟨h, by simp⟩
  | p :: l, s, h => by
    obtain ⟨h1, h2⟩ := setInsert_spec p s h
    obtain ⟨h3, h4⟩ := foldInsert_spec l (setInsert p s) h1
    refine ⟨h3, fun x => ?_⟩
    rw [List.foldl_cons, h4, h2, List.mem_cons]
    tauto

theorem mem_sendTo (part : List Nat) (x : Nat) : x ∈ sendTo part ↔ x ∈ part := by
  unfold sendTo
  rw [(foldInsert_spec part [] List.Pairwise.nil).2]
  simp

/-! ## Displacements -/

theorem displs_get : ∀ (ns : List Nat) (k : Nat), k ≤ ns.length → (displs ns)[k]? = some (ns.take k).sum
  | [], 0, _ => rfl
  | [], k + 1, h => by simp at h
  | n :: ns, 0, _ => rfl
  | n :: ns, k + 1, h => by
    have ih := displs_get ns k (by simpa using h)
    simp only [displs, List.getElem?_cons_succ, List.getElem?_map, ih, Option.map_some, List.take_succ_cons, List.sum_cons]

theorem flat_slice (f : Nat → List Nat) (P : Nat) : ∀ proc, proc < P → ∀ k (hk : k < (f proc).length),
    ((List.range P).flatMap f)[(((List.range P).map fun p => (f p).length).take proc).sum + k]? = some ((f proc)[k]) := by
  intro proc hp k hk
  have h1 : List.range P = List.range proc ++ (proc :: (List.range (P - proc - 1)).map (proc + 1 + ·)) := by
    have : P = proc + (1 + (P - proc - 1)) := by omega
    conv_lhs => rw [this]
    rw [List.range_add, List.range_add]
    simp only [List.range_one, List.map_append, List.map_cons, List.map_nil, List.map_map, Nat.add_zero, List.singleton_append]
    congr 2
    refine List.map_congr_left fun a _ => ?_
    simp only [Function.comp]
    omega
  have h2 : (((List.range P).map fun p => (f p).length).take proc).sum = ((List.range proc).flatMap f).length := by
    rw [h1, List.map_append, List.take_append_of_le_length (by simp), List.take_of_length_le (by simp), List.length_flatMap]
  rw [h2, h1, List.flatMap_append, List.getElem?_append_right (by omega), Nat.add_sub_cancel_left, List.flatMap_cons,
    List.getElem?_append_left hk, List.getElem?_eq_getElem hk]

theorem sendsTo_ok (f : Nat → List Nat) (P me proc : Nat) (hp : proc < P) :
    sendsTo ((List.range P).flatMap f) (displs ((List.range P).map fun p => (f p).length)) me proc = .ok (decide (me ∈ f proc)) := by
  have ha := displs_get ((List.range P).map fun p => (f p).length) proc (by simp; omega)
  have hb := displs_get ((List.range P).map fun p => (f p).length) (proc + 1) (by simp; omega)
  have hs : (((List.range P).map fun p => (f p).length).take (proc + 1)).sum =
      (((List.range P).map fun p => (f p).length).take proc).sum + (f proc).length := by
    rw [List.take_add_one, List.sum_append]
    congr 1
    simp [hp]
  unfold sendsTo
  rw [(rd_ok).2 ha, Res.ok_bind, (rd_ok).2 hb, Res.ok_bind, hs, Nat.add_sub_cancel_left]
  have key : ∀ n, n ≤ (f proc).length → ∀ r, (List.range n).foldlM (fun r k => do
      let t ← rd ((List.range P).flatMap f) ((((List.range P).map fun p => (f p).length).take proc).sum + k)
      .ok (r || t == me)) r = Res.ok (r || decide (me ∈ (f proc).take n)) := by
    intro n
    induction n with
    | zero => intro _ r; simp
    | succ n ih =>
      intro hn r
      rw [List.range_succ, List.foldlM_append, ih (by omega) r, Res.ok_bind, List.foldlM_cons,
        (rd_ok).2 (flat_slice f P proc hp n (by omega)), Res.ok_bind]
      simp only [List.foldlM_nil]
      show Res.ok _ = _
      rw [List.take_succ_eq_append_getElem (by omega : n < (f proc).length)]
      congr 1
      rw [Bool.or_assoc]
      congr 1
      rw [Bool.eq_iff_iff]
      simp only [Bool.or_eq_true, decide_eq_true_eq, beq_iff_eq, List.mem_append, List.mem_singleton]
      exact or_congr Iff.rfl eq_comm
  rw [key _ (le_refl _) false, Bool.false_or, List.take_length]

theorem recvFrom_ok (P : Nat) (parts : Nat → List Nat) (me : Nat) :
    recvFrom P parts me = .ok ((List.range P).filter fun p => me ∈ parts p) := by
  unfold recvFrom
  dsimp only
  have key : ∀ n, n ≤ P → (List.range n).foldlM (fun s proc => do
      let b ← sendsTo ((List.range P).flatMap fun p => sendTo (parts p))
        (displs ((List.range P).map fun p => (sendTo (parts p)).length)) me proc
      .ok (if b then s ++ [proc] else s)) [] = Res.ok ((List.range n).filter fun p => me ∈ parts p) := by
    intro n
    induction n with
    | zero => intro _; rfl
    | succ n ih =>
      intro hn
      rw [List.range_succ, List.foldlM_append, ih (by omega), Res.ok_bind, List.foldlM_cons,
        sendsTo_ok (fun p => sendTo (parts p)) P me n (by omega), Res.ok_bind, Res.ok_bind, List.foldlM_nil, List.filter_append]
      show Res.ok _ = _
      congr 1
      by_cases h : me ∈ parts n
      · rw [if_pos (by simpa [mem_sendTo] using h)]
        simp [h]
      · rw [if_neg (by simpa [mem_sendTo] using h)]
        simp [h]
  exact key P (le_refl _)

/-! ## The messages -/

/-- The sets of neighbours. -/
structure NbrsOk (s : Nbrs) : Prop where
  ovl : s.ovl.Pairwise (· < ·)
  procs : s.procs.Pairwise (· < ·)

section
variable {pis : PIS} {part : List Nat} {W : Nat → Nat} {G : Graph} {n : Nat}

theorem nbrEdge_ok (hA : PisOk pis) (hval : ∀ e ∈ pis, part[e.loc]? = some (W e.g)) {toPe : Nat} {s : Nbrs} (hs : NbrsOk s) {t : Nat}
    (ht : ∃ f ∈ pis, f.loc = t) :
    ∃ s', nbrEdge part pis toPe s t = .ok s' ∧ NbrsOk s' ∧
      (∀ x, x ∈ s'.ovl ↔ x ∈ s.ovl ∨ ∃ f ∈ pis, f.loc = t ∧ (W f.g ≠ toPe ∨ f.attr ≠ .owner) ∧ f.g = x) ∧
      (∀ x, x ∈ s'.procs ↔ x ∈ s.procs ∨ ∃ f ∈ pis, f.loc = t ∧ (W f.g ≠ toPe ∨ f.attr ≠ .owner) ∧ W f.g = x) := by
  obtain ⟨f, hf, rfl⟩ := ht
  unfold nbrEdge
  rw [(pairOf_some hA).2 ⟨hf, rfl⟩]
  dsimp only
  rw [(rd_ok).2 (hval f hf), Res.ok_bind]
  by_cases hc : W f.g ≠ toPe ∨ f.attr ≠ .owner
  · rw [if_pos hc]
    obtain ⟨a1, a2⟩ := setInsert_spec f.g s.ovl hs.ovl
    obtain ⟨b1, b2⟩ := setInsert_spec (W f.g) s.procs hs.procs
    refine ⟨_, rfl, ⟨a1, b1⟩, fun x => ?_, fun x => ?_⟩
    · rw [a2]
      constructor
      · rintro (rfl | h)
        · exact .inr ⟨f, hf, rfl, hc, rfl⟩
        · exact .inl h
      · rintro (h | ⟨f', hf', hl, _, rfl⟩)
        · exact .inr h
        · rw [idx_eq_of_loc hA hf' hf hl]; exact .inl rfl
    · rw [b2]
      constructor
      · rintro (rfl | h)
        · exact .inr ⟨f, hf, rfl, hc, rfl⟩
        · exact .inl h
      · rintro (h | ⟨f', hf', hl, _, rfl⟩)
        · exact .inr h
        · rw [idx_eq_of_loc hA hf' hf hl]; exact .inl rfl
  · rw [if_neg hc]
    refine ⟨s, rfl, hs, fun x => ⟨.inl, ?_⟩, fun x => ⟨.inl, ?_⟩⟩
    · rintro (h | ⟨f', hf', hl, h', _⟩)
      · exact h
      · rw [idx_eq_of_loc hA hf' hf hl] at h'; exact absurd h' hc
    · rintro (h | ⟨f', hf', hl, h', _⟩)
      · exact h
      · rw [idx_eq_of_loc hA hf' hf hl] at h'; exact absurd h' hc

theorem nbrFold_ok (hA : PisOk pis) (hval : ∀ e ∈ pis, part[e.loc]? = some (W e.g)) {toPe : Nat} : ∀ (ts : List Nat) (s : Nbrs), NbrsOk s →
    (∀ t ∈ ts, ∃ f ∈ pis, f.loc = t) →
    ∃ s', ts.foldlM (nbrEdge part pis toPe) s = .ok s' ∧ NbrsOk s' ∧
      (∀ x, x ∈ s'.ovl ↔ x ∈ s.ovl ∨ ∃ f ∈ pis, f.loc ∈ ts ∧ (W f.g ≠ toPe ∨ f.attr ≠ .owner) ∧ f.g = x) ∧
      (∀ x, x ∈ s'.procs ↔ x ∈ s.procs ∨ ∃ f ∈ pis, f.loc ∈ ts ∧ (W f.g ≠ toPe ∨ f.attr ≠ .owner) ∧ W f.g = x)
  | [], s, hs, _ => ⟨s, rfl, hs, by simp, by simp⟩
  | t :: ts, s, hs, h => by
    obtain ⟨s1, e1, k1, a1, b1⟩ := nbrEdge_ok (toPe := toPe) hA hval hs (h t (List.mem_cons_self ..))
    obtain ⟨s2, e2, k2, a2, b2⟩ := nbrFold_ok hA hval ts s1 k1 fun t' ht' => h t' (List.mem_cons_of_mem _ ht')
    refine ⟨s2, by rw [List.foldlM_cons, e1, Res.ok_bind]; exact e2, k2, fun x => ?_, fun x => ?_⟩
    · rw [a2, a1]
      constructor
      · rintro ((h | ⟨f, hf, hl, hc, hx⟩) | ⟨f, hf, hl, hc, hx⟩)
        · exact .inl h
        · exact .inr ⟨f, hf, by rw [hl]; exact List.mem_cons_self .., hc, hx⟩
        · exact .inr ⟨f, hf, List.mem_cons_of_mem _ hl, hc, hx⟩
      · rintro (h | ⟨f, hf, hl, hc, hx⟩)
        · exact .inl (.inl h)
        · rcases List.mem_cons.1 hl with hl | hl
          · exact .inl (.inr ⟨f, hf, hl, hc, hx⟩)
          · exact .inr ⟨f, hf, hl, hc, hx⟩
    · rw [b2, b1]
      constructor
      · rintro ((h | ⟨f, hf, hl, hc, hx⟩) | ⟨f, hf, hl, hc, hx⟩)
        · exact .inl h
        · exact .inr ⟨f, hf, by rw [hl]; exact List.mem_cons_self .., hc, hx⟩
        · exact .inr ⟨f, hf, List.mem_cons_of_mem _ hl, hc, hx⟩
      · rintro (h | ⟨f, hf, hl, hc, hx⟩)
        · exact .inl (.inl h)
        · rcases List.mem_cons.1 hl with hl | hl
          · exact .inl (.inr ⟨f, hf, hl, hc, hx⟩)
          · exact .inr ⟨f, hf, hl, hc, hx⟩

/-- The owner indices that go to process `toPe`. -/
def going (W : Nat → Nat) (toPe : Nat) (pis : PIS) : PIS := pis.filter fun e => e.attr = .owner ∧ W e.g = toPe

theorem mem_going {toPe : Nat} {e : Idx} : e ∈ going W toPe pis ↔ e ∈ pis ∧ e.attr = .owner ∧ W e.g = toPe := by
  unfold going
  rw [List.mem_filter, decide_eq_true_eq]

theorem ownerFold_ok (hA : PisOk pis) (hval : ∀ e ∈ pis, part[e.loc]? = some (W e.g))
    (hadj : ∀ e ∈ pis, ∀ t ∈ G.adj e.loc, ∃ f ∈ pis, f.loc = t) {toPe : Nat} :
    ∀ (L : PIS) (s : List Nat × Nbrs), (∀ e ∈ L, e ∈ pis) → NbrsOk s.2 →
    ∃ s', L.foldlM (ownerStep G part pis toPe) s = .ok s' ∧ NbrsOk s'.2 ∧ s'.1 = s.1 ++ (going W toPe L).map (fun e => e.g) ∧
      (∀ x, x ∈ s'.2.ovl ↔ x ∈ s.2.ovl ∨ ∃ e ∈ L, e.attr = .owner ∧ W e.g = toPe ∧
        ∃ f ∈ pis, f.loc ∈ G.adj e.loc ∧ (W f.g ≠ toPe ∨ f.attr ≠ .owner) ∧ f.g = x) ∧
      (∀ x, x ∈ s'.2.procs ↔ x ∈ s.2.procs ∨ ∃ e ∈ L, e.attr = .owner ∧ W e.g = toPe ∧
        ∃ f ∈ pis, f.loc ∈ G.adj e.loc ∧ (W f.g ≠ toPe ∨ f.attr ≠ .owner) ∧ W f.g = x)
  | [], s, _, hs => ⟨s, rfl, hs, by simp [going], by simp, by simp⟩
  | e :: L, s, hL, hs => by
    have heP := hL e (List.mem_cons_self ..)
    rw [List.foldlM_cons]
    unfold ownerStep
    by_cases hc : e.attr = .owner ∧ W e.g = toPe
    · obtain ⟨ha, hw⟩ := hc
      rw [if_pos ha, (rd_ok).2 (hval e heP), Res.ok_bind, if_pos hw]
      obtain ⟨nb, e1, k1, a1, b1⟩ := nbrFold_ok (toPe := toPe) hA hval (G.adj e.loc) s.2 hs (hadj e heP)
      unfold getNeighbor
      rw [e1, Res.ok_bind, Res.ok_bind]
      obtain ⟨s', e2, k2, c2, a2, b2⟩ := ownerFold_ok hA hval hadj (toPe := toPe) L (s.1 ++ [e.g], nb)
        (fun f hf => hL f (List.mem_cons_of_mem _ hf)) k1
      refine ⟨s', e2, k2, ?_, fun x => ?_, fun x => ?_⟩
      · rw [c2]
        unfold going
        rw [List.filter_cons, if_pos (by simp [ha, hw]), List.map_cons, List.append_assoc]
        rfl
      · rw [a2]
        dsimp only
        rw [a1]
        constructor
        · rintro ((h | h) | ⟨e', he', h⟩)
          · exact .inl h
          · exact .inr ⟨e, List.mem_cons_self .., ha, hw, h⟩
          · exact .inr ⟨e', List.mem_cons_of_mem _ he', h⟩
        · rintro (h | ⟨e', he', h1, h2, h3⟩)
          · exact .inl (.inl h)
          · rcases List.mem_cons.1 he' with rfl | he'
            · exact .inl (.inr h3)
            · exact .inr ⟨e', he', h1, h2, h3⟩
      · rw [b2]
        dsimp only
        rw [b1]
        constructor
        · rintro ((h | h) | ⟨e', he', h⟩)
          · exact .inl h
          · exact .inr ⟨e, List.mem_cons_self .., ha, hw, h⟩
          · exact .inr ⟨e', List.mem_cons_of_mem _ he', h⟩
        · rintro (h | ⟨e', he', h1, h2, h3⟩)
          · exact .inl (.inl h)
          · rcases List.mem_cons.1 he' with rfl | he'
            · exact .inl (.inr h3)
            · exact .inr ⟨e', he', h1, h2, h3⟩
    · have hstep : (if e.attr = .owner then do
          let pe ← rd part e.loc
          if pe = toPe then do
            let nb ← getNeighbor G part pis toPe e.loc s.2
            .ok (s.1 ++ [e.g], nb)
          else .ok s
        else .ok s : Res (List Nat × Nbrs)) = .ok s := by
        by_cases ha : e.attr = .owner
        · rw [if_pos ha, (rd_ok).2 (hval e heP), Res.ok_bind, if_neg fun h => hc ⟨ha, h⟩]
        · rw [if_neg ha]
      rw [hstep, Res.ok_bind]
      obtain ⟨s', e2, k2, c2, a2, b2⟩ := ownerFold_ok hA hval hadj (toPe := toPe) L s
        (fun f hf => hL f (List.mem_cons_of_mem _ hf)) hs
      refine ⟨s', e2, k2, ?_, fun x => ?_, fun x => ?_⟩
      · rw [c2]
        unfold going
        rw [List.filter_cons, if_neg (by simpa using hc)]
      · rw [a2]
        refine or_congr Iff.rfl ⟨fun ⟨e', he', h⟩ => ⟨e', List.mem_cons_of_mem _ he', h⟩, ?_⟩
        rintro ⟨e', he', h1, h2, h3⟩
        rcases List.mem_cons.1 he' with rfl | he'
        · exact absurd ⟨h1, h2⟩ hc
        · exact ⟨e', he', h1, h2, h3⟩
      · rw [b2]
        refine or_congr Iff.rfl ⟨fun ⟨e', he', h⟩ => ⟨e', List.mem_cons_of_mem _ he', h⟩, ?_⟩
        rintro ⟨e', he', h1, h2, h3⟩
        rcases List.mem_cons.1 he' with rfl | he'
        · exact absurd ⟨h1, h2⟩ hc
        · exact ⟨e', he', h1, h2, h3⟩

end

/-! ## Packing -/

theorem unpack_ok (l rest : List Nat) : unpack (l.length :: l ++ rest) = .ok (l, rest) := by
  unfold unpack
  dsimp only [List.cons_append]
  rw [if_pos (by simp), List.take_left, List.drop_left]

theorem saveRecvBuf_ok (m : List Nat × Nbrs) (src : Nat) (s : Mine) :
    saveRecvBuf (createSendBuf m) src s = .ok ⟨s.owner ++ m.1.map fun g => (g, src), m.2.ovl.foldl (fun o g => setInsert g o) s.ovl,
      m.2.procs.foldl (fun o n => setInsert n o) s.procs⟩ := by
  unfold saveRecvBuf createSendBuf
  rw [unpack_ok, Res.ok_bind]
  dsimp only
  rw [unpack_ok, Res.ok_bind]
  have := unpack_ok m.2.procs []
  rw [List.append_nil] at this
  dsimp only
  rw [this, Res.ok_bind]

end Par
end Istl
