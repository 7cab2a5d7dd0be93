import Verif.Spec.ForEach
import Verif.Lemmas.Vec
import Verif.Lemmas.Ccs
import Mathlib.Data.List.Nodup
import Mathlib.Tactic.Ring
import Mathlib.Tactic.Linarith

/-! # C40: flat traversal visits every scalar once with its flat index -/

namespace Istl
namespace ForEach

open Finset

variable {S : Type}

/-- Calling the functor on a list of scalars with positions relative to `(ro, co)`. -/
def callsAt {σ : Type} (f : S → Nat → Nat → σ → σ) (ro co : Nat) (T : List (S × Nat × Nat)) (st : σ) : σ :=
  T.foldl (fun st t => f t.1 (ro + t.2.1) (co + t.2.2) st) st

theorem callsAt_append {σ : Type} (f : S → Nat → Nat → σ → σ) (ro co : Nat) (T U : List (S × Nat × Nat)) (st : σ) :
    callsAt f ro co (T ++ U) st = callsAt f ro co U (callsAt f ro co T st) := by
  simp [callsAt]

/-- move a list of calls by `(a, b)` -/
def shift (a b : Nat) (T : List (S × Nat × Nat)) : List (S × Nat × Nat) := T.map fun t => (t.1, a + t.2.1, b + t.2.2)

theorem callsAt_shift {σ : Type} (f : S → Nat → Nat → σ → σ) (ro co a b : Nat) (T : List (S × Nat × Nat)) (st : σ) :
    callsAt f ro co (shift a b T) st = callsAt f (ro + a) (co + b) T st := by
  simp [callsAt, shift, List.foldl_map, Nat.add_assoc]

theorem callsAt_id {σ : Type} (ro co : Nat) (T : List (S × Nat × Nat)) (st : σ) :
    callsAt (fun _ _ _ st => st) ro co T st = st := by
  induction T generalizing st with
  | nil => rfl
  | cons t T ih => exact ih st

/-- What the traversal of `A` has to do. -/
structure Trav (A : NMat S) (R C : Nat) (T : List (S × Nat × Nat)) : Prop where
  run : ∀ {σ : Type} (f : S → Nat → Nat → σ → σ) (ro co : Nat) (st : σ),
    flatMatrix A f ro co st = .ok (callsAt f ro co T st, R, C)
  at_iff : ∀ s r c, (s, r, c) ∈ T ↔ At A r c s
  nodup : (T.map Prod.snd).Nodup
  bound : ∀ t ∈ T, t.2.1 < R ∧ t.2.2 < C
  count : countNonZeros A = T.length
  order : T.Pairwise fun t t' => t.2.2 = t'.2.2 → t.2.1 < t'.2.1
  rows : Ascending A → T.Pairwise fun t t' => t.2.1 = t'.2.1 → t.2.2 < t'.2.2

theorem Dim.unique {A : NMat S} {R C : Nat} (h : Dim A R C) : ∀ {R' C' : Nat}, Dim A R' C' → R = R' ∧ C = C' := by
  induction h with
  | scalar s => intro R' C' h'; cases h'; exact ⟨rfl, rfl⟩
  | sparse n m pat entry dflt br bc hbr hbc hpat hblk hdflt ih ihd =>
    intro R' C' h'
    cases h' with
    | sparse _ _ _ _ _ br' bc' _ _ _ hblk' hdflt' =>
      by_cases he : ∀ i, i < n → pat i = []
      · obtain ⟨rfl, rfl⟩ := ihd he (hdflt' he); exact ⟨rfl, rfl⟩
      · push Not at he
        obtain ⟨i, hi, hne⟩ := he
        obtain ⟨j, hj⟩ := List.exists_mem_of_ne_nil _ hne
        obtain ⟨rfl, rfl⟩ := ih i j hi hj (hblk' i j hi hj); exact ⟨rfl, rfl⟩
  | dense n m entry h w hn hm hblk ih =>
    intro R' C' h'
    cases h' with
    | dense _ _ _ h' w' _ _ hblk' =>
      constructor
      · exact Finset.sum_congr rfl fun i hi => (ih i 0 (Finset.mem_range.mp hi) hm (hblk' i 0 (Finset.mem_range.mp hi) hm)).1
      · exact Finset.sum_congr rfl fun j hj => (ih 0 j hn (Finset.mem_range.mp hj) (hblk' 0 j hn (Finset.mem_range.mp hj))).2

theorem nodup_flat {K E P : Type} (L : List K) (T : K → List E) (pos : E → P) (hL : L.Nodup)
    (h1 : ∀ k ∈ L, ((T k).map pos).Nodup)
    (h2 : ∀ k ∈ L, ∀ k' ∈ L, ∀ e ∈ T k, ∀ e' ∈ T k', pos e = pos e' → k = k') : ((L.flatMap T).map pos).Nodup := by
  induction L with
  | nil => simp
  | cons k L ih =>
    rw [List.flatMap_cons, List.map_append, List.nodup_append]
    rw [List.nodup_cons] at hL
    refine ⟨h1 k (by simp), ih hL.2 (fun k' hk => h1 k' (by simp [hk]))
      (fun a ha b hb => h2 a (by simp [ha]) b (by simp [hb])), ?_⟩
    intro p hp q hq e
    subst e
    obtain ⟨x, hx, hxp⟩ := List.mem_map.mp hp
    obtain ⟨y, hy, hyp⟩ := List.mem_map.mp hq
    obtain ⟨k', hk', hy'⟩ := List.mem_flatMap.mp hy
    have := h2 k (by simp) k' (by simp [hk']) x hx y hy' (by rw [hxp, hyp])
    subst this
    exact hL.1 hk'

theorem mem_shift {a b : Nat} {T : List (S × Nat × Nat)} {t : S × Nat × Nat} (h : t ∈ shift a b T) :
    ∃ u ∈ T, t = (u.1, a + u.2.1, b + u.2.2) := by
  obtain ⟨u, hu, rfl⟩ := List.mem_map.mp h
  exact ⟨u, hu, rfl⟩

theorem nodup_shift {a b : Nat} {T : List (S × Nat × Nat)} (h : (T.map Prod.snd).Nodup) :
    ((shift a b T).map Prod.snd).Nodup := by
  have : (shift a b T).map Prod.snd = (T.map Prod.snd).map fun p => (a + p.1, b + p.2) := by
    simp [shift, Function.comp_def]
  rw [this]
  apply h.map
  rintro ⟨p, q⟩ ⟨p', q'⟩ e
  simp only [Prod.mk.injEq] at e ⊢
  omega

theorem nodup_pairs (n : Nat) (pat : Nat → List Nat) (h : ∀ i, i < n → (pat i).Nodup) :
    ((List.range n).flatMap fun i => (pat i).map fun j => (i, j)).Nodup := by
  have := nodup_flat (List.range n) (fun i => (pat i).map fun j => (i, j)) (id : Nat × Nat → Nat × Nat) List.nodup_range
    (fun i hi => by
      rw [List.map_id]
      exact (h i (List.mem_range.mp hi)).map (fun a b e => by simpa using e))
    (fun i _ i' _ e he e' he' h => by
      obtain ⟨a, _, rfl⟩ := List.mem_map.mp he
      obtain ⟨b, _, rfl⟩ := List.mem_map.mp he'
      exact (Prod.ext_iff.mp h).1)
  rwa [List.map_id] at this

theorem mem_pairs {n : Nat} {pat : Nat → List Nat} {p : Nat × Nat} :
    p ∈ ((List.range n).flatMap fun i => (pat i).map fun j => (i, j)) ↔ p.1 < n ∧ p.2 ∈ pat p.1 := by
  obtain ⟨i, j⟩ := p
  simp only [List.mem_flatMap, List.mem_range, List.mem_map, Prod.mk.injEq]
  constructor
  · rintro ⟨a, ha, b, hb, rfl, rfl⟩; exact ⟨ha, hb⟩
  · rintro ⟨h1, h2⟩; exact ⟨i, h1, j, h2, rfl, rfl⟩

theorem block_inj {h : Nat → Nat} {i i' r r' : Nat} (hr : r < h i) (hr' : r' < h i')
    (e : ∑ k ∈ range i, h k + r = ∑ k ∈ range i', h k + r') : i = i' := by
  have key : ∀ a b x y, x < h a → a < b → ∑ k ∈ range a, h k + x < ∑ k ∈ range b, h k + y := by
    intro a b x y hx hab
    have : ∑ k ∈ range (a + 1), h k ≤ ∑ k ∈ range b, h k :=
      Finset.sum_le_sum_of_subset (by intro z hz; simp only [Finset.mem_range] at *; omega)
    rw [Finset.sum_range_succ] at this
    omega
  rcases lt_trichotomy i i' with hlt | heq | hgt
  · have := key i i' r r' hr hlt; omega
  · exact heq
  · have := key i' i r' r hr' hgt; omega

theorem block_lt {h : Nat → Nat} {n i r : Nat} (hi : i < n) (hr : r < h i) :
    ∑ k ∈ range i, h k + r < ∑ k ∈ range n, h k := by
  have : ∑ k ∈ range (i + 1), h k ≤ ∑ k ∈ range n, h k :=
    Finset.sum_le_sum_of_subset (by intro z hz; simp only [Finset.mem_range] at *; omega)
  rw [Finset.sum_range_succ] at this
  omega

theorem block_mono {h : Nat → Nat} {i i' r r' : Nat} (hi : i < i') (hr : r < h i) :
    ∑ k ∈ range i, h k + r < ∑ k ∈ range i', h k + r' := by
  have := @block_lt h i' i r hi hr
  omega

theorem order_shift {a b : Nat} {T : List (S × Nat × Nat)} (h : T.Pairwise fun t t' => t.2.2 = t'.2.2 → t.2.1 < t'.2.1) :
    (shift a b T).Pairwise fun t t' => t.2.2 = t'.2.2 → t.2.1 < t'.2.1 := by
  unfold shift
  rw [List.pairwise_map]
  refine h.imp ?_
  intro t t' ht e
  dsimp only at e ⊢
  have := ht (by omega)
  omega

theorem rows_shift {a b : Nat} {T : List (S × Nat × Nat)} (h : T.Pairwise fun t t' => t.2.1 = t'.2.1 → t.2.2 < t'.2.2) :
    (shift a b T).Pairwise fun t t' => t.2.1 = t'.2.1 → t.2.2 < t'.2.2 := by
  unfold shift
  rw [List.pairwise_map]
  refine h.imp ?_
  intro t t' ht e
  dsimp only at e ⊢
  have := ht (by omega)
  omega

theorem pairs_rows (n : Nat) (pat : Nat → List Nat) (h : ∀ i, i < n → (pat i).Pairwise (· < ·)) :
    ((List.range n).flatMap fun i => (pat i).map fun j => (i, j)).Pairwise
      fun p p' => p.1 < p'.1 ∨ (p.1 = p'.1 ∧ p.2 < p'.2) := by
  rw [List.pairwise_flatMap]
  constructor
  · intro i hi
    rw [List.pairwise_map]
    refine (h i (List.mem_range.mp hi)).imp ?_
    intro a b hab
    exact Or.inr ⟨rfl, hab⟩
  · refine List.pairwise_lt_range.imp ?_
    intro i i' hi x hx y hy
    obtain ⟨_, _, rfl⟩ := List.mem_map.mp hx
    obtain ⟨_, _, rfl⟩ := List.mem_map.mp hy
    exact Or.inl hi

theorem pairs_order (n : Nat) (pat : Nat → List Nat) (h : ∀ i, i < n → (pat i).Nodup) :
    ((List.range n).flatMap fun i => (pat i).map fun j => (i, j)).Pairwise
      fun p p' => p.1 < p'.1 ∨ (p.1 = p'.1 ∧ p.2 ≠ p'.2) := by
  rw [List.pairwise_flatMap]
  constructor
  · intro i hi
    rw [List.pairwise_map]
    refine (h i (List.mem_range.mp hi)).imp ?_
    intro a b hab
    exact Or.inr ⟨rfl, hab⟩
  · refine List.pairwise_lt_range.imp ?_
    intro i i' hi x hx y hy
    obtain ⟨_, _, rfl⟩ := List.mem_map.mp hx
    obtain ⟨_, _, rfl⟩ := List.mem_map.mp hy
    exact Or.inl hi

theorem foldl_count {E : Type} (L : List E) (g : E → Nat) (c : Nat) : L.foldl (fun c e => c + g e) c = c + (L.map g).sum := by
  induction L generalizing c with
  | nil => simp
  | cons e L ih => simp [ih, Nat.add_assoc]

theorem foldl_count' {E : Type} (L : List E) (F : Nat → E → Nat) (g : E → Nat) (hF : ∀ c e, e ∈ L → F c e = c + g e) (c : Nat) :
    L.foldl F c = c + (L.map g).sum := by
  induction L generalizing c with
  | nil => simp
  | cons e L ih =>
    rw [List.foldl_cons, hF c e (by simp), ih (fun c e he => hF c e (by simp [he]))]
    simp [Nat.add_assoc]

theorem trav_sparse (n m : Nat) (pat : Nat → List Nat) (entry : Nat → Nat → NMat S) (dflt : NMat S) (br bc : Nat)
    (hbr : 0 < br) (hbc : 0 < bc) (hpat : ∀ i, i < n → (pat i).Nodup ∧ ∀ j ∈ pat i, j < m)
    (hdim : ∀ i j, i < n → j ∈ pat i → Dim (entry i j) br bc)
    (hblk : ∀ i j, i < n → j ∈ pat i → ∃ T, Trav (entry i j) br bc T)
    (hdflt : (∀ i, i < n → pat i = []) → ∃ T, Trav dflt br bc T) :
    ∃ T, Trav (.sparse n m pat entry dflt) (n * br) (m * bc) T := by
  have : ∀ i j, ∃ T, i < n → j ∈ pat i → Trav (entry i j) br bc T := by
    intro i j
    by_cases h : i < n ∧ j ∈ pat i
    · obtain ⟨T, hT⟩ := hblk i j h.1 h.2; exact ⟨T, fun _ _ => hT⟩
    · exact ⟨[], fun h1 h2 => absurd ⟨h1, h2⟩ h⟩
  choose T hT using this
  let rowT : Nat → List (S × Nat × Nat) := fun i => (pat i).flatMap fun j => shift (i * br) (j * bc) (T i j)
  have hflat : (List.range n).flatMap rowT = ((List.range n).flatMap fun i => (pat i).map fun j => (i, j)).flatMap
      fun p => shift (p.1 * br) (p.2 * bc) (T p.1 p.2) := by
    rw [List.flatMap_assoc]
    congr 1
    funext i
    rw [List.flatMap_map]
  refine ⟨(List.range n).flatMap rowT, ?_, ?_, ?_, ?_, ?_, ?_, ?_⟩
  · intro σ f ro co st
    have hb : ((firstStored n pat).elim (flatMatrix dflt (fun _ _ _ st => st) 0 0 st)
        fun ij => flatMatrix (entry ij.1 ij.2) (fun _ _ _ st => st) 0 0 st) = .ok (st, br, bc) := by
      cases hf : firstStored n pat with
      | some ij =>
        have hmem : ij ∈ ((List.range n).flatMap fun i => (pat i).map fun j => (i, j)) := List.mem_of_mem_head? hf
        rw [mem_pairs] at hmem
        simp only [Option.elim_some]
        rw [(hT ij.1 ij.2 hmem.1 hmem.2).run, callsAt_id]
      | none =>
        simp only [Option.elim_none]
        have he : ∀ i, i < n → pat i = [] := by
          intro i hi
          unfold firstStored at hf
          rw [List.head?_eq_none_iff] at hf
          apply List.eq_nil_iff_forall_not_mem.mpr
          intro j hj
          have : (i, j) ∈ ((List.range n).flatMap fun i => (pat i).map fun j => (i, j)) := mem_pairs.mpr ⟨hi, hj⟩
          rw [hf] at this
          simp at this
        obtain ⟨U, hU⟩ := hdflt he
        rw [hU.run, callsAt_id]
    obtain ⟨s', e', hs'⟩ := forRangeM_inv n (fun i st =>
      (pat i).foldlM (fun st j => do
        let r ← flatMatrix (entry i j) f (ro + i * br) (co + j * bc) st
        check (r.2.1 = br ∧ r.2.2 = bc)
        .ok r.1) st) (fun k s => s = callsAt f ro co ((List.range k).flatMap rowT) st) st (by simp [callsAt]) (by
      intro i s hi hs
      obtain ⟨s'', e'', hs''⟩ := Ccs.foldlM_inv (fun st j => do
        let r ← flatMatrix (entry i j) f (ro + i * br) (co + j * bc) st
        check (r.2.1 = br ∧ r.2.2 = bc)
        .ok r.1) (fun P s' => s' = callsAt f ro co (P.flatMap fun j => shift (i * br) (j * bc) (T i j)) s) (pat i) s
        (by simp [callsAt]) (by
          intro P j rest s1 hl hs1
          have hj : j ∈ pat i := by rw [hl]; simp
          refine ⟨callsAt f (ro + i * br) (co + j * bc) (T i j) s1, ?_, ?_⟩
          · rw [(hT i j hi hj).run]
            simp [check]
          · rw [hs1, List.flatMap_append, callsAt_append]
            simp [callsAt_shift])
      refine ⟨s'', e'', ?_⟩
      rw [List.range_succ, List.flatMap_append, callsAt_append, ← hs, hs'']
      simp [rowT])
    simp only [flatMatrix]
    rw [hb]
    simp only [Res.ok_bind]
    have hc : check (br ≠ 0 ∨ bc ≠ 0) = .ok () := by
      rw [check, if_pos]; left; omega
    rw [hc, Res.ok_bind, e', Res.ok_bind, hs']
  · intro s r c
    rw [hflat]
    simp only [List.mem_flatMap (f := fun p : Nat × Nat => shift (p.1 * br) (p.2 * bc) (T p.1 p.2)), mem_pairs]
    constructor
    · rintro ⟨⟨i, j⟩, ⟨hi, hj⟩, hm⟩
      obtain ⟨⟨s', r', c'⟩, hu, e⟩ := mem_shift hm
      simp only [Prod.mk.injEq] at e
      obtain ⟨rfl, rfl, rfl⟩ := e
      exact At.sparse _ _ _ _ _ br bc i j _ _ _ hi hj (hdim i j hi hj) (((hT i j hi hj).at_iff _ _ _).mp hu)
    · intro h
      cases h with
      | sparse _ _ _ _ _ br' bc' i j r c _ hi hj hd hs =>
        obtain ⟨rfl, rfl⟩ := (hdim i j hi hj).unique hd
        exact ⟨(i, j), ⟨hi, hj⟩, List.mem_map.mpr ⟨(s, r, c), ((hT i j hi hj).at_iff _ _ _).mpr hs, rfl⟩⟩
  · rw [hflat]
    apply nodup_flat _ _ _ (nodup_pairs n pat fun i hi => (hpat i hi).1)
    · intro p hp
      rw [mem_pairs] at hp
      exact nodup_shift (hT p.1 p.2 hp.1 hp.2).nodup
    · rintro ⟨i, j⟩ hp ⟨i', j'⟩ hp' t ht t' ht' e
      rw [mem_pairs] at hp hp'
      obtain ⟨u, hu, rfl⟩ := mem_shift ht
      obtain ⟨u', hu', rfl⟩ := mem_shift ht'
      have b := (hT i j hp.1 hp.2).bound u hu
      have b' := (hT i' j' hp'.1 hp'.2).bound u' hu'
      simp only [Prod.mk.injEq] at e
      have h1 := @block_inj (fun _ => br) i i' u.2.1 u'.2.1 b.1 b'.1 (by simpa using e.1)
      have h2 := @block_inj (fun _ => bc) j j' u.2.2 u'.2.2 b.2 b'.2 (by simpa using e.2)
      rw [h1, h2]
  · intro t ht
    rw [hflat, List.mem_flatMap] at ht
    obtain ⟨⟨i, j⟩, hp, ht⟩ := ht
    rw [mem_pairs] at hp
    obtain ⟨u, hu, rfl⟩ := mem_shift ht
    have b := (hT i j hp.1 hp.2).bound u hu
    have h1 := @block_lt (fun _ => br) n i u.2.1 hp.1 b.1
    have h2 := @block_lt (fun _ => bc) m j u.2.2 ((hpat i hp.1).2 j hp.2) b.2
    simp only [Finset.sum_const, Finset.card_range, smul_eq_mul] at h1 h2
    exact ⟨h1, h2⟩
  · rw [countNonZeros, forRange, foldl_count' _ _ (fun i => (rowT i).length)]
    · simp [List.length_flatMap]
    · intro c i hi
      rw [foldl_count' _ _ (fun j => (T i j).length)]
      · simp [rowT, List.length_flatMap, shift]
      · intro c j hj
        rw [(hT i j (List.mem_range.mp hi) hj).count]
  · rw [hflat, List.pairwise_flatMap]
    constructor
    · intro p hp
      rw [mem_pairs] at hp
      exact order_shift (hT p.1 p.2 hp.1 hp.2).order
    · refine (pairs_order n pat fun i hi => (hpat i hi).1).imp_of_mem ?_
      rintro ⟨i, j⟩ ⟨i', j'⟩ hp hp' hor t ht t' ht' e
      rw [mem_pairs] at hp hp'
      obtain ⟨u, hu, rfl⟩ := mem_shift ht
      obtain ⟨u', hu', rfl⟩ := mem_shift ht'
      have b := (hT i j hp.1 hp.2).bound u hu
      have b' := (hT i' j' hp'.1 hp'.2).bound u' hu'
      dsimp only at e hor ⊢
      rcases hor with hlt | ⟨_, hne⟩
      · have := @block_mono (fun _ => br) i i' u.2.1 u'.2.1 hlt b.1
        simpa using this
      · exact absurd (@block_inj (fun _ => bc) j j' u.2.2 u'.2.2 b.2 b'.2 (by simpa using e)) hne
  · intro hA
    cases hA with
    | sparse _ _ _ _ _ hasc hAblk =>
    rw [hflat, List.pairwise_flatMap]
    constructor
    · intro p hp
      rw [mem_pairs] at hp
      exact rows_shift ((hT p.1 p.2 hp.1 hp.2).rows (hAblk _ _ hp.1 hp.2))
    · refine (pairs_rows n pat hasc).imp_of_mem ?_
      rintro ⟨i, j⟩ ⟨i', j'⟩ hp hp' hor t ht t' ht' e
      rw [mem_pairs] at hp hp'
      obtain ⟨u, hu, rfl⟩ := mem_shift ht
      obtain ⟨u', hu', rfl⟩ := mem_shift ht'
      have b := (hT i j hp.1 hp.2).bound u hu
      have b' := (hT i' j' hp'.1 hp'.2).bound u' hu'
      dsimp only at e hor ⊢
      rcases hor with hlt | ⟨_, hlt⟩
      · have := @block_inj (fun _ => br) i i' u.2.1 u'.2.1 b.1 b'.1 (by simpa using e)
        omega
      · have := @block_mono (fun _ => bc) j j' u.2.2 u'.2.2 hlt b.2
        simpa using this

theorem trav_dense (n m : Nat) (entry : Nat → Nat → NMat S) (h w : Nat → Nat) (hn : 0 < n) (hm : 0 < m)
    (hdim : ∀ i j, i < n → j < m → Dim (entry i j) (h i) (w j))
    (hblk : ∀ i j, i < n → j < m → ∃ T, Trav (entry i j) (h i) (w j) T) :
    ∃ T, Trav (.dense n m entry) (∑ i ∈ range n, h i) (∑ j ∈ range m, w j) T := by
  have : ∀ i j, ∃ T, i < n → j < m → Trav (entry i j) (h i) (w j) T := by
    intro i j
    by_cases h' : i < n ∧ j < m
    · obtain ⟨T, hT⟩ := hblk i j h'.1 h'.2; exact ⟨T, fun _ _ => hT⟩
    · exact ⟨[], fun h1 h2 => absurd ⟨h1, h2⟩ h'⟩
  choose T hT using this
  let cell : Nat → Nat → List (S × Nat × Nat) := fun i j => shift (∑ k ∈ range i, h k) (∑ k ∈ range j, w k) (T i j)
  let rowT : Nat → List (S × Nat × Nat) := fun i => (List.range m).flatMap fun j => cell i j
  have hflat : (List.range n).flatMap rowT = ((List.range n).flatMap fun i => (List.range m).map fun j => (i, j)).flatMap
      fun p => cell p.1 p.2 := by
    rw [List.flatMap_assoc]
    congr 1
    funext i
    rw [List.flatMap_map]
  refine ⟨(List.range n).flatMap rowT, ?_, ?_, ?_, ?_, ?_, ?_, ?_⟩
  · intro σ f ro co st
    obtain ⟨s', e', hs'⟩ := forRangeM_inv n (fun i (s : DSt σ) => do
      let s ← forRangeM m (fun j (s : DSt σ) => do
        let r ← flatMatrix (entry i j) f (ro + s.r) (co + s.c) s.st
        .ok ⟨r.1, s.r, s.c + r.2.2, some r.2.1⟩) { s with c := 0 }
      addRows s) (fun k s => s.st = callsAt f ro co ((List.range k).flatMap rowT) st ∧ s.r = ∑ i ∈ range k, h i ∧
        (0 < k → s.c = ∑ j ∈ range m, w j)) ⟨st, 0, 0, none⟩ ⟨by simp [callsAt], by simp, by simp⟩ (by
      intro i s hi hs
      obtain ⟨s1, e1, hs1⟩ := forRangeM_inv m (fun j (s : DSt σ) => do
        let r ← flatMatrix (entry i j) f (ro + s.r) (co + s.c) s.st
        .ok ⟨r.1, s.r, s.c + r.2.2, some r.2.1⟩) (fun k s1 =>
          s1.st = callsAt f ro co ((List.range k).flatMap fun j => cell i j) s.st ∧ s1.r = s.r ∧
          s1.c = ∑ j ∈ range k, w j ∧ (0 < k → s1.nRows = some (h i))) { s with c := 0 }
          ⟨by simp [callsAt], rfl, by simp, by simp⟩ (by
          intro j s1 hj hs1
          refine ⟨⟨callsAt f (ro + s1.r) (co + s1.c) (T i j) s1.st, s1.r, s1.c + w j, some (h i)⟩, ?_, ?_, hs1.2.1, ?_, ?_⟩
          · rw [(hT i j hi hj).run]; rfl
          · rw [List.range_succ, List.flatMap_append, callsAt_append, ← hs1.1]
            simp only [List.flatMap_cons, List.flatMap_nil, List.append_nil, cell]
            rw [callsAt_shift, hs1.2.2.1, hs1.2.1, hs.2.1]
          · rw [Finset.sum_range_succ, hs1.2.2.1]
          · intro _; rfl)
      refine ⟨{ s1 with r := s1.r + h i }, ?_, ?_, ?_, ?_⟩
      · rw [e1, Res.ok_bind, addRows, hs1.2.2.2 hm]
      · rw [List.range_succ, List.flatMap_append, callsAt_append, ← hs.1]
        simp only [List.flatMap_cons, List.flatMap_nil, List.append_nil, rowT]
        exact hs1.1
      · dsimp only
        rw [hs1.2.1, hs.2.1, Finset.sum_range_succ]
      · intro _
        exact hs1.2.2.1)
    simp only [flatMatrix]
    rw [e', Res.ok_bind, hs'.1, hs'.2.1, hs'.2.2 hn]
  · intro s r c
    rw [hflat]
    simp only [List.mem_flatMap (f := fun p : Nat × Nat => cell p.1 p.2), mem_pairs, List.mem_range]
    constructor
    · rintro ⟨⟨i, j⟩, ⟨hi, hj⟩, hm⟩
      obtain ⟨⟨s', r', c'⟩, hu, e⟩ := mem_shift hm
      simp only [Prod.mk.injEq] at e
      obtain ⟨rfl, rfl, rfl⟩ := e
      exact At.dense _ _ _ h w i j _ _ _ hi hj hdim (((hT i j hi hj).at_iff _ _ _).mp hu)
    · intro hat
      cases hat with
      | dense _ _ _ h' w' i j r c _ hi hj hd hs =>
        have e1 : ∑ k ∈ range i, h' k = ∑ k ∈ range i, h k := Finset.sum_congr rfl fun k hk => by
          have hk := Finset.mem_range.mp hk
          exact ((hd k 0 (by omega) hm).unique (hdim k 0 (by omega) hm)).1
        have e2 : ∑ k ∈ range j, w' k = ∑ k ∈ range j, w k := Finset.sum_congr rfl fun k hk => by
          have hk := Finset.mem_range.mp hk
          exact ((hd 0 k hn (by omega)).unique (hdim 0 k hn (by omega))).2
        rw [e1, e2]
        exact ⟨(i, j), ⟨hi, hj⟩, List.mem_map.mpr ⟨(s, r, c), ((hT i j hi hj).at_iff _ _ _).mpr hs, rfl⟩⟩
  · rw [hflat]
    apply nodup_flat _ _ _ (nodup_pairs n (fun _ => List.range m) fun i hi => List.nodup_range)
    · intro p hp
      rw [mem_pairs, List.mem_range] at hp
      exact nodup_shift (hT p.1 p.2 hp.1 hp.2).nodup
    · rintro ⟨i, j⟩ hp ⟨i', j'⟩ hp' t ht t' ht' e
      rw [mem_pairs, List.mem_range] at hp hp'
      obtain ⟨u, hu, rfl⟩ := mem_shift ht
      obtain ⟨u', hu', rfl⟩ := mem_shift ht'
      have b := (hT i j hp.1 hp.2).bound u hu
      have b' := (hT i' j' hp'.1 hp'.2).bound u' hu'
      simp only [Prod.mk.injEq] at e
      have h1 := @block_inj h i i' u.2.1 u'.2.1 b.1 b'.1 e.1
      have h2 := @block_inj w j j' u.2.2 u'.2.2 b.2 b'.2 e.2
      rw [h1, h2]
  · intro t ht
    rw [hflat, List.mem_flatMap] at ht
    obtain ⟨⟨i, j⟩, hp, ht⟩ := ht
    rw [mem_pairs, List.mem_range] at hp
    obtain ⟨u, hu, rfl⟩ := mem_shift ht
    have b := (hT i j hp.1 hp.2).bound u hu
    exact ⟨block_lt hp.1 b.1, block_lt hp.2 b.2⟩
  · rw [countNonZeros, forRange, foldl_count' _ _ (fun i => (rowT i).length)]
    · simp [List.length_flatMap]
    · intro c i hi
      rw [forRange, foldl_count' _ _ (fun j => (T i j).length)]
      · simp [rowT, cell, List.length_flatMap, shift]
      · intro c j hj
        rw [(hT i j (List.mem_range.mp hi) (List.mem_range.mp hj)).count]
  · rw [hflat, List.pairwise_flatMap]
    constructor
    · intro p hp
      rw [mem_pairs, List.mem_range] at hp
      exact order_shift (hT p.1 p.2 hp.1 hp.2).order
    · refine (pairs_order n (fun _ => List.range m) fun i hi => List.nodup_range).imp_of_mem ?_
      rintro ⟨i, j⟩ ⟨i', j'⟩ hp hp' hor t ht t' ht' e
      rw [mem_pairs, List.mem_range] at hp hp'
      obtain ⟨u, hu, rfl⟩ := mem_shift ht
      obtain ⟨u', hu', rfl⟩ := mem_shift ht'
      have b := (hT i j hp.1 hp.2).bound u hu
      have b' := (hT i' j' hp'.1 hp'.2).bound u' hu'
      dsimp only at e hor ⊢
      rcases hor with hlt | ⟨_, hne⟩
      · exact block_mono hlt b.1
      · exact absurd (block_inj b.2 b'.2 e) hne
  · intro hA
    cases hA with
    | dense _ _ _ hAblk =>
    rw [hflat, List.pairwise_flatMap]
    constructor
    · intro p hp
      rw [mem_pairs, List.mem_range] at hp
      exact rows_shift ((hT p.1 p.2 hp.1 hp.2).rows (hAblk _ _ hp.1 hp.2))
    · refine (pairs_rows n (fun _ => List.range m) fun i hi => List.pairwise_lt_range).imp_of_mem ?_
      rintro ⟨i, j⟩ ⟨i', j'⟩ hp hp' hor t ht t' ht' e
      rw [mem_pairs, List.mem_range] at hp hp'
      obtain ⟨u, hu, rfl⟩ := mem_shift ht
      obtain ⟨u', hu', rfl⟩ := mem_shift ht'
      have b := (hT i j hp.1 hp.2).bound u hu
      have b' := (hT i' j' hp'.1 hp'.2).bound u' hu'
      dsimp only at e hor ⊢
      rcases hor with hlt | ⟨_, hlt⟩
      · have := block_inj b.1 b'.1 e
        omega
      · exact block_mono hlt b.2

theorem trav {A : NMat S} {R C : Nat} (h : Dim A R C) : ∃ T, Trav A R C T := by
  induction h with
  | scalar s =>
    refine ⟨[(s, 0, 0)], by intros; simp [flatMatrix, callsAt], ?_, by simp, by simp, by simp [countNonZeros], by simp, by simp⟩
    intro s' r c
    constructor
    · intro h
      simp only [List.mem_singleton, Prod.mk.injEq] at h
      obtain ⟨rfl, rfl, rfl⟩ := h
      exact At.scalar _
    · intro h
      cases h
      simp
  | sparse n m pat entry dflt br bc hbr hbc hpat hblk hdflt ih ihd =>
    exact trav_sparse n m pat entry dflt br bc hbr hbc hpat hblk ih ihd
  | dense n m entry h w hn hm hblk ih => exact trav_dense n m entry h w hn hm hblk ih

end ForEach

open ForEach
variable {S : Type}

/-- `flatVectorForEach` calls the functor once for every scalar, from left to right, with consecutive offsets, and returns the
number of scalars; for every nesting of containers and every functor. -/
theorem C40_vector {σ : Type} (f : S → Nat → σ → σ) (v : NVec S) (off : Nat) (st : σ) :
    flatVector f v off st = ((v.leaves.zipIdx off).foldl (fun st p => f p.1 p.2 st) st, v.leaves.length) := by
  induction v generalizing off st with
  | scalar s => simp [flatVector, NVec.leaves]
  | node n child ih =>
    simp only [flatVector, NVec.leaves]
    suffices h : ∀ k, forRange k (fun i (p : σ × Nat) =>
        ((flatVector f (child i) (off + p.2) p.1).1, p.2 + (flatVector f (child i) (off + p.2) p.1).2)) (st, 0) =
        ((((List.range k).flatMap fun i => (child i).leaves).zipIdx off).foldl (fun st p => f p.1 p.2 st) st,
          ((List.range k).flatMap fun i => (child i).leaves).length) from h n
    intro k
    induction k with
    | zero => simp [forRange]
    | succ k ihk =>
      rw [forRange_succ, ihk]
      simp only [ih, List.range_succ, List.flatMap_append, List.flatMap_cons, List.flatMap_nil, List.append_nil,
        List.zipIdx_append, List.foldl_append, List.length_append]

/-- `flatMatrixForEach` on a well aligned nested matrix: no assertion fails and no uninitialised value is read; there is a list
of calls containing each stored scalar of the flat matrix with its flat row and column, no position twice, such that the functor
is called exactly on that list (relative to the given offsets), the dimensions of the flat matrix are returned, and
`countNonZeros` is the number of calls. Within each flat column the rows are visited in ascending order; if the column indices
are stored in ascending order at every level, the columns of each flat row are visited in ascending order too. -/
theorem C40_matrix (A : NMat S) (R C : Nat) (hA : Dim A R C) :
    ∃ T : List (S × Nat × Nat),
      (∀ {σ : Type} (f : S → Nat → Nat → σ → σ) (ro co : Nat) (st : σ),
        flatMatrix A f ro co st = .ok (T.foldl (fun st t => f t.1 (ro + t.2.1) (co + t.2.2) st) st, R, C)) ∧
      (∀ s r c, (s, r, c) ∈ T ↔ At A r c s) ∧
      (T.map Prod.snd).Nodup ∧
      (∀ t ∈ T, t.2.1 < R ∧ t.2.2 < C) ∧
      countNonZeros A = T.length ∧
      T.Pairwise (fun t t' => t.2.2 = t'.2.2 → t.2.1 < t'.2.1) ∧
      (Ascending A → T.Pairwise (fun t t' => t.2.1 = t'.2.1 → t.2.2 < t'.2.2)) := by
  obtain ⟨T, h⟩ := trav hA
  exact ⟨T, h.run, h.at_iff, h.nodup, h.bound, h.count, h.order, h.rows⟩

/-- A position of the flat matrix holds at most one scalar, and the flat dimensions are determined by the matrix. -/
theorem C40_unique (A : NMat S) (R C : Nat) (hA : Dim A R C) :
    (∀ r c s s', At A r c s → At A r c s' → s = s') ∧ ∀ R' C', Dim A R' C' → R = R' ∧ C = C' := by
  refine ⟨?_, fun R' C' h => hA.unique h⟩
  obtain ⟨T, h⟩ := trav hA
  intro r c s s' h1 h2
  have m1 := (h.at_iff s r c).mpr h1
  have m2 := (h.at_iff s' r c).mpr h2
  have := List.inj_on_of_nodup_map h.nodup m1 m2 rfl
  exact (Prod.ext_iff.mp this).1

/-- A matrix with rows but without columns (outside the documented restrictions) reads an uninitialised variable. -/
theorem C40_no_columns_counterexample :
    flatMatrix (NMat.dense 2 0 (fun _ _ => NMat.scalar 0)) (fun (_ : Nat) _ _ (st : Unit) => st) 0 0 () = .ub := by rfl

/-- Non-vacuity: a 2x2 sparse matrix with 1x2 dense blocks of scalars. -/
example : ∃ A : NMat Nat, Dim A 2 4 ∧ countNonZeros A = 6 :=
  ⟨.sparse 2 2 (fun i => if i = 0 then [0, 1] else [1]) (fun i j => .dense 1 2 fun _ l => .scalar (10 * i + 5 * j + l))
      (.scalar 0), by
    refine Dim.sparse 2 2 _ _ _ 1 2 (by decide) (by decide) ?_ ?_ ?_
    · intro i hi; interval_cases i <;> decide
    · intro i j _ _
      exact Dim.dense 1 2 _ (fun _ => 1) (fun _ => 1) (by decide) (by decide) fun _ _ _ _ => Dim.scalar _
    · intro h; exact absurd (h 0 (by decide)) (by decide), by rfl⟩

end Istl
