import Verif.Lemmas.Redistribute

/-! # Lemmas: redistribution of matrices, pattern and values on one process -/

namespace Istl
namespace Par
open Amg MatMat

variable {B : Type}

/-! ## The pattern -/

/-- The record `d` (row, global column) makes the position `(i,c)`. -/
def Touch (gmax : Nat) (new : PIS) (d : Nat × Nat) (i c : Nat) : Prop :=
  d.2 ≠ gmax ∧ ∃ ip ∈ new, ip.g = d.2 ∧ ((d.1 = i ∧ c = ip.loc) ∨ (ip.attr ≠ .owner ∧ i = ip.loc ∧ c = d.1))

theorem mem_insertAt {n : Nat} {sp : Nat → List Nat} (hs : ∀ i, (sp i).Pairwise (· < ·)) {i c : Nat} (hi : i < n) :
    ∃ sp', insertAt n sp i c = .ok sp' ∧ (∀ i, (sp' i).Pairwise (· < ·)) ∧ ∀ i' c', c' ∈ sp' i' ↔ c' ∈ sp i' ∨ (i' = i ∧ c' = c) := by
  obtain ⟨g1, g2⟩ := setInsert_spec c (sp i) (hs i)
  refine ⟨_, by unfold insertAt; rw [if_pos hi], ?_, ?_⟩
  · intro k
    by_cases h : k = i
    · subst h; rw [upd_same]; exact g1
    · rw [upd_ne _ _ h]; exact hs k
  · intro k c'
    by_cases h : k = i
    · subst h; rw [upd_same, g2]; constructor
      · rintro (h | h); exacts [Or.inr ⟨rfl, h⟩, Or.inl h]
      · rintro (h | ⟨_, h⟩); exacts [Or.inr h, Or.inl h]
    · rw [upd_ne _ _ h]; simp [h]

theorem scatterPat_ok {gmax : Nat} {new : PIS} (hn : PisOk new) (hb : ∀ e ∈ new, e.loc < new.length) {sp : Nat → List Nat}
    (hs : ∀ i, (sp i).Pairwise (· < ·)) (d : Nat × Nat) (hd : d.1 < new.length) :
    ∃ sp', scatterPat gmax new sp d.2 d.1 = .ok sp' ∧ (∀ i, (sp' i).Pairwise (· < ·)) ∧
      ∀ i c, c ∈ sp' i ↔ c ∈ sp i ∨ Touch gmax new d i c := by
  unfold scatterPat Touch
  by_cases hg : d.2 = gmax
  · rw [if_pos hg]
    exact ⟨sp, rfl, hs, fun i c => by simp [hg]⟩
  · rw [if_neg hg]
    cases hl : lookup new d.2 with
    | none =>
      refine ⟨sp, rfl, hs, fun i c => ⟨Or.inl, ?_⟩⟩
      rintro (h | ⟨_, ip, h1, h2, _⟩)
      · exact h
      · exact absurd h2 ((lookup_none hn _).1 hl ip h1)
    | some ip =>
      obtain ⟨h1, h2⟩ := (lookup_iff hn _ _).1 hl
      have huniq : ∀ ip' ∈ new, ip'.g = d.2 → ip' = ip := fun ip' h3 h4 => idx_eq_of_g hn h3 h1 (h4.trans h2.symm)
      obtain ⟨sp1, a1, a2, a3⟩ := mem_insertAt hs (c := ip.loc) hd
      dsimp only
      rw [a1, Res.ok_bind]
      by_cases ha : ip.attr = .owner
      · rw [if_neg (by simpa using ha)]
        refine ⟨sp1, rfl, a2, fun i c => ?_⟩
        rw [a3]
        constructor
        · rintro (h | ⟨rfl, rfl⟩)
          · exact Or.inl h
          · exact Or.inr ⟨hg, ip, h1, h2, Or.inl ⟨rfl, rfl⟩⟩
        · rintro (h | ⟨_, ip', h3, h4, h5⟩)
          · exact Or.inl h
          · obtain rfl := huniq ip' h3 h4
            rcases h5 with ⟨rfl, rfl⟩ | ⟨h5, _⟩
            · exact Or.inr ⟨rfl, rfl⟩
            · exact absurd ha h5
      · rw [if_pos ha]
        obtain ⟨sp2, b1, b2, b3⟩ := mem_insertAt a2 (c := d.1) (hb ip h1)
        refine ⟨sp2, b1, b2, fun i c => ?_⟩
        rw [b3, a3]
        constructor
        · rintro ((h | ⟨rfl, rfl⟩) | ⟨rfl, rfl⟩)
          · exact Or.inl h
          · exact Or.inr ⟨hg, ip, h1, h2, Or.inl ⟨rfl, rfl⟩⟩
          · exact Or.inr ⟨hg, ip, h1, h2, Or.inr ⟨ha, rfl, rfl⟩⟩
        · rintro (h | ⟨_, ip', h3, h4, h5⟩)
          · exact Or.inl (Or.inl h)
          · obtain rfl := huniq ip' h3 h4
            rcases h5 with ⟨rfl, rfl⟩ | ⟨_, rfl, rfl⟩
            · exact Or.inl (Or.inr ⟨rfl, rfl⟩)
            · exact Or.inr ⟨rfl, rfl⟩

theorem patternFold_ok {gmax : Nat} {new : PIS} (hn : PisOk new) (hb : ∀ e ∈ new, e.loc < new.length) :
    ∀ (L : List (Nat × Nat)) (sp : Nat → List Nat), (∀ i, (sp i).Pairwise (· < ·)) → (∀ d ∈ L, d.1 < new.length) →
    ∃ sp', L.foldlM (fun s d => scatterPat gmax new s d.2 d.1) sp = .ok sp' ∧ (∀ i, (sp' i).Pairwise (· < ·)) ∧
      ∀ i c, c ∈ sp' i ↔ c ∈ sp i ∨ ∃ d ∈ L, Touch gmax new d i c
  | [], sp, hs, _ => ⟨sp, rfl, hs, by simp⟩
  | d :: L, sp, hs, hL => by
    obtain ⟨sp1, a1, a2, a3⟩ := scatterPat_ok (gmax := gmax) hn hb hs d (hL d (List.mem_cons_self ..))
    obtain ⟨sp2, b1, b2, b3⟩ := patternFold_ok hn hb L sp1 a2 fun d hd => hL d (List.mem_cons_of_mem _ hd)
    refine ⟨sp2, by rw [List.foldlM_cons, a1, Res.ok_bind, b1], b2, fun i c => ?_⟩
    rw [b3, a3]
    constructor
    · rintro ((h | h) | ⟨d', h1, h2⟩)
      · exact Or.inl h
      · exact Or.inr ⟨d, List.mem_cons_self .., h⟩
      · exact Or.inr ⟨d', List.mem_cons_of_mem _ h1, h2⟩
    · rintro (h | ⟨d', h1, h2⟩)
      · exact Or.inl (Or.inl h)
      · rcases List.mem_cons.1 h1 with rfl | h1
        · exact Or.inl (Or.inr h2)
        · exact Or.inr ⟨d', h1, h2⟩

theorem storeFold_ok {n : Nat} : ∀ (L : PIS) (sp : Nat → List Nat) (k : Nat), (∀ i, (sp i).Pairwise (· < ·)) → (∀ e ∈ L, e.loc < n) →
    ∃ sp' k', L.foldlM (fun (s : (Nat → List Nat) × Nat) (e : Idx) => do
        let sp ← insertDiag n s.1 e
        .ok (sp, s.2 + (sp e.loc).length)) (sp, k) = .ok (sp', k') ∧ (∀ i, (sp' i).Pairwise (· < ·)) ∧
      (∀ i c, c ∈ sp' i ↔ c ∈ sp i ∨ ∃ e ∈ L, e.attr ≠ .owner ∧ i = e.loc ∧ c = e.loc) ∧ k ≤ k' ∧
      ((∃ e ∈ L, sp e.loc ≠ [] ∨ e.attr ≠ .owner) → k < k')
  | [], sp, k, hs, _ => ⟨sp, k, rfl, hs, by simp, le_refl _, by simp⟩
  | e :: L, sp, k, hs, hL => by
    have hstep : ∃ sp1, insertDiag n sp e = .ok sp1 ∧ (∀ i, (sp1 i).Pairwise (· < ·)) ∧
        ∀ i c, c ∈ sp1 i ↔ c ∈ sp i ∨ (e.attr ≠ .owner ∧ i = e.loc ∧ c = e.loc) := by
      unfold insertDiag
      by_cases ha : e.attr = .owner
      · rw [if_neg (by simpa using ha)]
        exact ⟨sp, rfl, hs, by simp [ha]⟩
      · rw [if_pos ha]
        obtain ⟨sp1, a1, a2, a3⟩ := mem_insertAt hs (c := e.loc) (hL e (List.mem_cons_self ..))
        exact ⟨sp1, a1, a2, fun i c => by rw [a3]; simp [ha]⟩
    obtain ⟨sp1, a1, a2, a3⟩ := hstep
    obtain ⟨sp2, k2, b1, b2, b3, b4, b5⟩ := storeFold_ok L sp1 (k + (sp1 e.loc).length) a2 fun e he => hL e (List.mem_cons_of_mem _ he)
    refine ⟨sp2, k2, ?_, b2, ?_, by omega, ?_⟩
    · rw [List.foldlM_cons]
      simp only [a1, Res.ok_bind]
      exact b1
    · intro i c
      rw [b3, a3]
      constructor
      · rintro ((h | h) | ⟨e', h1, h2⟩)
        · exact Or.inl h
        · exact Or.inr ⟨e, List.mem_cons_self .., h⟩
        · exact Or.inr ⟨e', List.mem_cons_of_mem _ h1, h2⟩
      · rintro (h | ⟨e', h1, h2⟩)
        · exact Or.inl (Or.inl h)
        · rcases List.mem_cons.1 h1 with rfl | h1
          · exact Or.inl (Or.inr h2)
          · exact Or.inr ⟨e', h1, h2⟩
    · rintro ⟨e', h1, h2⟩
      rcases List.mem_cons.1 h1 with rfl | h1
      · have : sp1 e'.loc ≠ [] := by
          rcases h2 with h2 | h2
          · obtain ⟨c, hc⟩ := List.exists_mem_of_ne_nil _ h2
            exact List.ne_nil_of_mem ((a3 _ _).2 (Or.inl hc))
          · exact List.ne_nil_of_mem ((a3 _ _).2 (Or.inr ⟨h2, rfl, rfl⟩))
        have := List.length_pos_iff.2 this
        omega
      · have := b5 ⟨e', h1, by
          rcases h2 with h2 | h2
          · obtain ⟨c, hc⟩ := List.exists_mem_of_ne_nil _ h2
            exact Or.inl (List.ne_nil_of_mem ((a3 _ _).2 (Or.inl hc)))
          · exact Or.inr h2⟩
        omega

/-! ## The values -/

/-- The record `d` (row, global column, value) writes position `(i,c)`. -/
def Hit (gmax : Nat) (new : PIS) (d : Nat × Nat × B) (i c : Nat) : Prop :=
  d.1 = i ∧ d.2.1 ≠ gmax ∧ ∃ ip ∈ new, ip.g = d.2.1 ∧ c = ip.loc

theorem mem_put (r : List (Nat × B)) (c : Nat) (b : B) (c' : Nat) (b' : B) :
    (c', b') ∈ r.map (fun e => if e.1 = c then (c, b) else e) ↔
      (c' = c ∧ c ∈ r.map Prod.fst ∧ b' = b) ∨ (c' ≠ c ∧ (c', b') ∈ r) := by
  rw [List.mem_map]
  constructor
  · rintro ⟨e, he, h⟩
    by_cases hc : e.1 = c
    · rw [if_pos hc] at h
      cases h
      exact Or.inl ⟨rfl, List.mem_map.2 ⟨e, he, hc⟩, rfl⟩
    · rw [if_neg hc] at h
      subst h
      exact Or.inr ⟨hc, he⟩
  · rintro (⟨rfl, h, rfl⟩ | ⟨h1, h2⟩)
    · obtain ⟨e, he, h⟩ := List.mem_map.1 h
      exact ⟨e, he, by rw [if_pos h]⟩
    · exact ⟨_, h2, by rw [if_neg h1]⟩

theorem put_fst (r : List (Nat × B)) (c : Nat) (b : B) :
    (r.map (fun e => if e.1 = c then (c, b) else e)).map Prod.fst = r.map Prod.fst := by
  rw [List.map_map]
  refine List.map_congr_left fun e _ => ?_
  simp only [Function.comp]
  by_cases h : e.1 = c
  · rw [if_pos h, h]
  · rw [if_neg h]

theorem valueFold_ok {gmax : Nat} {new : PIS} (hn : PisOk new) : ∀ (L : List (Nat × Nat × B)) (A : SpMat B),
    (∀ d ∈ L, ∀ i c, Hit gmax new d i c → i < A.n ∧ c ∈ (A.row i).map Prod.fst) →
    ∃ A', L.foldlM (fun s d => scatterVal gmax new s d.2 d.1) A = .ok A' ∧ A'.n = A.n ∧ A'.m = A.m ∧
      (∀ i, (A'.row i).map Prod.fst = (A.row i).map Prod.fst) ∧
      ∀ i c, ((∀ d ∈ L, ¬ Hit gmax new d i c) → ∀ b, (c, b) ∈ A'.row i ↔ (c, b) ∈ A.row i) ∧
        ∀ v, (∃ d ∈ L, Hit gmax new d i c) → (∀ d ∈ L, Hit gmax new d i c → d.2.2 = v) → ∀ b, (c, b) ∈ A'.row i ↔ b = v
  | [], A, _ => ⟨A, rfl, rfl, rfl, fun _ => rfl, fun i c => ⟨fun _ _ => Iff.rfl, by simp⟩⟩
  | d :: L, A, hA => by
    have hstep : ∃ A1, scatterVal gmax new A d.2 d.1 = .ok A1 ∧ A1.n = A.n ∧ A1.m = A.m ∧
        (∀ i, (A1.row i).map Prod.fst = (A.row i).map Prod.fst) ∧
        ∀ i c, (¬ Hit gmax new d i c → ∀ b, (c, b) ∈ A1.row i ↔ (c, b) ∈ A.row i) ∧
          (Hit gmax new d i c → ∀ b, (c, b) ∈ A1.row i ↔ b = d.2.2) := by
      unfold scatterVal
      by_cases hg : d.2.1 = gmax
      · rw [if_pos hg]
        exact ⟨A, rfl, rfl, rfl, fun _ => rfl, fun i c => ⟨fun _ _ => Iff.rfl, fun h => absurd hg h.2.1⟩⟩
      · rw [if_neg hg]
        cases hl : lookup new d.2.1 with
        | none =>
          refine ⟨A, rfl, rfl, rfl, fun _ => rfl, fun i c => ⟨fun _ _ => Iff.rfl, ?_⟩⟩
          rintro ⟨_, _, ip, h1, h2, _⟩
          exact absurd h2 ((lookup_none hn _).1 hl ip h1)
        | some ip =>
          obtain ⟨h1, h2⟩ := (lookup_iff hn _ _).1 hl
          have hhit : ∀ i c, Hit gmax new d i c ↔ i = d.1 ∧ c = ip.loc := by
            intro i c
            constructor
            · rintro ⟨e1, _, ip', h3, h4, e2⟩
              rw [idx_eq_of_g hn h3 h1 (h4.trans h2.symm)] at e2
              exact ⟨e1.symm, e2⟩
            · rintro ⟨rfl, rfl⟩
              exact ⟨rfl, hg, ip, h1, h2, rfl⟩
          obtain ⟨hi, hc⟩ := hA d (List.mem_cons_self ..) d.1 ip.loc ((hhit _ _).2 ⟨rfl, rfl⟩)
          refine ⟨⟨A.n, A.m, upd A.row d.1 ((A.row d.1).map fun e => if e.1 = ip.loc then (ip.loc, d.2.2) else e)⟩,
            by dsimp only; unfold putAt; rw [if_pos ⟨hi, hc⟩], rfl, rfl, ?_, ?_⟩
          · intro i
            dsimp only
            by_cases h : i = d.1
            · subst h; rw [upd_same, put_fst]
            · rw [upd_ne _ _ h]
          · intro i c
            rw [hhit]
            dsimp only
            by_cases h : i = d.1
            · subst h
              rw [upd_same]
              constructor
              · intro hne b
                rw [mem_put]
                have : c ≠ ip.loc := fun h => hne ⟨rfl, h⟩
                simp [this]
              · rintro ⟨_, rfl⟩ b
                rw [mem_put]
                simp only [true_and, ne_eq, not_true_eq_false, false_and, or_false]
                exact ⟨fun h => h.2, fun h => ⟨hc, h⟩⟩
            · rw [upd_ne _ _ h]
              exact ⟨fun _ _ => Iff.rfl, fun h' => absurd h'.1 h⟩
    obtain ⟨A1, a1, a2, a3, a4, a5⟩ := hstep
    obtain ⟨A2, b1, b2, b3, b4, b5⟩ := valueFold_ok hn L A1 (fun d' hd' i c h => by
      rw [a2, a4]; exact hA d' (List.mem_cons_of_mem _ hd') i c h)
    refine ⟨A2, by rw [List.foldlM_cons, a1, Res.ok_bind, b1], b2.trans a2, b3.trans a3, fun i => (b4 i).trans (a4 i), fun i c => ?_⟩
    constructor
    · intro h b
      rw [(b5 i c).1 (fun d' hd' => h d' (List.mem_cons_of_mem _ hd')) b, (a5 i c).1 (h d (List.mem_cons_self ..)) b]
    · intro v hex hall b
      by_cases hr : ∃ d' ∈ L, Hit gmax new d' i c
      · exact (b5 i c).2 v hr (fun d' hd' => hall d' (List.mem_cons_of_mem _ hd')) b
      · rw [(b5 i c).1 (fun d' hd' hh => hr ⟨d', hd', hh⟩) b]
        obtain ⟨d', hd', hh⟩ := hex
        rcases List.mem_cons.1 hd' with rfl | hd'
        · rw [(a5 i c).2 hh b, hall _ (List.mem_cons_self ..) hh]
        · exact absurd ⟨d', hd', hh⟩ hr

/-! ## Dirichlet rows -/

theorem dirichlet_ok [Zero B] (one : B) : ∀ (L : PIS) (A : SpMat B),
    (L.foldl (fun A e => if e.attr ≠ .owner then
      { A with row := upd A.row e.loc ((A.row e.loc).map fun c => (c.1, if c.1 = e.loc then one else 0)) } else A) A).n = A.n ∧
    (L.foldl (fun A e => if e.attr ≠ .owner then
      { A with row := upd A.row e.loc ((A.row e.loc).map fun c => (c.1, if c.1 = e.loc then one else 0)) } else A) A).m = A.m ∧
    ∀ i, ((∀ e ∈ L, e.attr ≠ .owner → e.loc ≠ i) → (L.foldl (fun A e => if e.attr ≠ .owner then
        { A with row := upd A.row e.loc ((A.row e.loc).map fun c => (c.1, if c.1 = e.loc then one else 0)) } else A) A).row i = A.row i) ∧
      ((∃ e ∈ L, e.attr ≠ .owner ∧ e.loc = i) → (L.foldl (fun A e => if e.attr ≠ .owner then
        { A with row := upd A.row e.loc ((A.row e.loc).map fun c => (c.1, if c.1 = e.loc then one else 0)) } else A) A).row i =
        (A.row i).map fun c => (c.1, if c.1 = i then one else 0))
  | [], A => ⟨rfl, rfl, fun i => ⟨fun _ => rfl, by simp⟩⟩
  | e :: L, A => by
    rw [List.foldl_cons]
    by_cases ha : e.attr = .owner
    · rw [if_neg (by simpa using ha)]
      obtain ⟨h1, h2, h3⟩ := dirichlet_ok one L A
      refine ⟨h1, h2, fun i => ⟨fun h => (h3 i).1 fun e' he' => h e' (List.mem_cons_of_mem _ he'), ?_⟩⟩
      rintro ⟨e', he', ha', hl⟩
      rcases List.mem_cons.1 he' with rfl | he'
      · exact absurd ha ha'
      · exact (h3 i).2 ⟨e', he', ha', hl⟩
    · rw [if_pos ha]
      obtain ⟨h1, h2, h3⟩ := dirichlet_ok one L
        { A with row := upd A.row e.loc ((A.row e.loc).map fun c => (c.1, if c.1 = e.loc then one else 0)) }
      refine ⟨h1, h2, fun i => ⟨fun h => ?_, ?_⟩⟩
      · rw [(h3 i).1 fun e' he' => h e' (List.mem_cons_of_mem _ he')]
        dsimp only
        rw [upd_ne _ _ (Ne.symm (h e (List.mem_cons_self ..) ha))]
      · rintro ⟨e', he', ha', hl⟩
        by_cases hr : ∃ e' ∈ L, e'.attr ≠ .owner ∧ e'.loc = i
        · rw [(h3 i).2 hr]
          dsimp only
          by_cases hi : i = e.loc
          · subst hi
            rw [upd_same, List.map_map]
            rfl
          · rw [upd_ne _ _ hi]
        · rw [(h3 i).1 fun e' he' ha' hl => hr ⟨e', he', ha', hl⟩]
          rcases List.mem_cons.1 he' with rfl | he'
          · subst hl
            dsimp only
            rw [upd_same]
          · exact absurd ⟨e', he', ha', hl⟩ hr

end Par
end Istl
