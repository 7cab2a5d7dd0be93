import Verif.Lemmas.Novlp

/-! Border contributions and the local sum of the nonoverlapping operator. -/

namespace Istl
namespace Par
variable {B V K : Type}

theorem borderRow_ok (rm : RiMap) (rank iowner i : Nat) (mask : List Nat) (μ : Nat → Nat) (r : Row B)
    (hr : ∀ e ∈ r, mask[e.1]? = some (μ e.1)) (bc : List (Nat × Nat)) :
    r.foldlM (fun bc e => (do
      let mj ← rd mask e.1
      .ok (if mj = 0 ∧ novBlocked rm rank iowner i e.1 = false then bc ++ [(i, e.1)] else bc) : Res (List (Nat × Nat)))) bc =
    .ok (bc ++ (r.filter fun e => decide (μ e.1 = 0 ∧ novBlocked rm rank iowner i e.1 = false)).map fun e => (i, e.1)) := by
  induction r generalizing bc with
  | nil => rw [List.filter_nil, List.map_nil, List.append_nil]; rfl
  | cons e r ih =>
    have he := rd_ok.2 (hr e (List.mem_cons_self ..))
    rw [List.foldlM_cons, he]
    simp only [Res.ok_bind]
    rw [ih fun f hf => hr f (List.mem_cons_of_mem _ hf)]
    by_cases h : μ e.1 = 0 ∧ novBlocked rm rank iowner i e.1 = false
    · rw [if_pos h, List.filter_cons_of_pos (by simpa using h)]; simp
    · rw [if_neg h, List.filter_cons_of_neg (by simpa using h)]

/-- The list of border contributions: no duplicates, and a characterisation of its members. -/
theorem novBorder_ok (A : SpMat B) (rank : Nat) (mask : List Nat) (rm : RiMap) (μ own : Nat → Nat)
    (hA : ∀ i, i < A.n → ((A.row i).map Prod.fst).Nodup) (hμ : ∀ i, i < A.n → mask[i]? = some (μ i))
    (hc : ∀ i, i < A.n → ∀ e ∈ A.row i, mask[e.1]? = some (μ e.1)) (ho : ∀ i, i < A.n → μ i = 0 → rm.owner.lookup i = some (own i)) :
    ∃ bc, novBorder A rank mask rm = .ok bc ∧ bc.Nodup ∧
      ∀ i j, (i, j) ∈ bc ↔ i < A.n ∧ μ i = 0 ∧ (∃ b, (j, b) ∈ A.row i) ∧ μ j = 0 ∧ novBlocked rm rank (own i) i j = false := by
  let part : Nat → List (Nat × Nat) := fun i => if μ i = 0 then
    ((A.row i).filter fun e => decide (μ e.1 = 0 ∧ novBlocked rm rank (own i) i e.1 = false)).map (fun e => (i, e.1)) else []
  have hp : ∀ i j k, (i, j) ∈ part k ↔ i = k ∧ μ i = 0 ∧ (∃ b, (j, b) ∈ A.row i) ∧ μ j = 0 ∧ novBlocked rm rank (own i) i j = false := by
    intro i j k
    simp only [part]
    by_cases h : μ k = 0
    · rw [if_pos h, List.mem_map]
      constructor
      · rintro ⟨e, he, h'⟩
        rw [List.mem_filter] at he
        obtain ⟨h1, h2⟩ := Prod.mk.inj h'
        subst h1 h2
        have := of_decide_eq_true he.2
        exact ⟨rfl, h, ⟨e.2, he.1⟩, this.1, this.2⟩
      · rintro ⟨rfl, _, ⟨b, hb⟩, h2, h3⟩
        exact ⟨(j, b), List.mem_filter.2 ⟨hb, decide_eq_true ⟨h2, h3⟩⟩, rfl⟩
    · rw [if_neg h]
      simp only [List.not_mem_nil, false_iff]
      rintro ⟨rfl, h', -⟩
      exact h h'
  have hn : ∀ k, k < A.n → (part k).Nodup := by
    intro k hk
    simp only [part]
    split
    · have h1 : (((A.row k).filter fun e => decide (μ e.1 = 0 ∧ novBlocked rm rank (own k) k e.1 = false)).map Prod.fst).Nodup :=
        (List.Sublist.map _ List.filter_sublist).nodup (hA k hk)
      have h2 := h1.map (f := fun j : Nat => (k, j)) (fun a b h => (Prod.mk.inj h).2)
      rw [List.map_map] at h2
      exact h2
    · exact List.nodup_nil
  suffices h : ∀ n, n ≤ A.n → (List.range n).foldlM (fun (bc : List (Nat × Nat)) i => (do
      let m ← rd mask i
      if m = 0 then
        match rm.owner.lookup i with
        | none => .ub
        | some iowner => (A.row i).foldlM (fun bc e => (do
            let mj ← rd mask e.1
            .ok (if mj = 0 ∧ novBlocked rm rank iowner i e.1 = false then bc ++ [(i, e.1)] else bc) : Res (List (Nat × Nat)))) bc
      else .ok bc : Res (List (Nat × Nat)))) [] = .ok ((List.range n).flatMap part) by
    refine ⟨_, h A.n (le_refl _), ?_, ?_⟩
    · rw [List.nodup_flatMap]
      refine ⟨fun k hk => hn k (List.mem_range.1 hk), ?_⟩
      refine (List.nodup_range).imp_of_mem ?_
      intro a b _ _ hab
      change List.Disjoint _ _
      rintro ⟨i, j⟩ h1 h2
      exact hab (((hp i j a).1 h1).1.symm.trans ((hp i j b).1 h2).1)
    · intro i j
      rw [List.mem_flatMap]
      constructor
      · rintro ⟨k, hk, h⟩
        obtain ⟨rfl, h'⟩ := (hp i j k).1 h
        exact ⟨List.mem_range.1 hk, h'⟩
      · rintro ⟨hi, h⟩
        exact ⟨i, List.mem_range.2 hi, (hp i j i).2 ⟨rfl, h⟩⟩
  intro n
  induction n with
  | zero => intro _; rfl
  | succ n ih =>
    intro hn
    have hn' : n < A.n := by omega
    rw [List.range_succ, List.foldlM_append, ih (by omega), Res.ok_bind, List.foldlM_cons, rd_ok.2 (hμ n hn')]
    simp only [Res.ok_bind, List.foldlM_nil]
    by_cases h0 : μ n = 0
    · rw [if_pos h0, ho n hn' h0]
      dsimp only
      rw [borderRow_ok rm rank (own n) n mask μ (A.row n) (hc n hn')]
      simp only [Res.ok_bind, List.flatMap_append, List.flatMap_cons, List.flatMap_nil, List.append_nil]
      have : part n = ((A.row n).filter fun e => decide (μ e.1 = 0 ∧ novBlocked rm rank (own n) n e.1 = false)).map (fun e => (n, e.1)) :=
        if_pos h0
      rw [this]; rfl
    · rw [if_neg h0]
      have : part n = [] := if_neg h0
      simp only [Res.ok_bind, List.flatMap_append, List.flatMap_cons, List.flatMap_nil, List.append_nil, this]
      rfl

section sum
variable [AddCommGroup B] [AddCommGroup V] [Ring K] [Module K V]

theorem border_fold (L : List (Nat × Nat)) (hL : L.Nodup) (i j : Nat) (t yi : V) :
    (L.filter fun b => b.1 = i).foldl (fun yi b => if b.2 = j then yi + t else yi) yi = yi + if (i, j) ∈ L then t else 0 := by
  induction L generalizing yi with
  | nil => simp
  | cons b L ih =>
    rw [List.nodup_cons] at hL
    by_cases h1 : b.1 = i
    · rw [List.filter_cons_of_pos (by simpa using h1), List.foldl_cons, ih hL.2]
      by_cases h2 : b.2 = j
      · have hb : b = (i, j) := Prod.ext h1 h2
        rw [if_pos h2, if_neg (by rw [← hb]; exact hL.1), if_pos (by rw [hb]; exact List.mem_cons_self ..), add_zero]
      · have hb : (i, j) ≠ b := fun h => h2 (by rw [← h])
        rw [if_neg h2]
        simp [hb]
    · have hb : (i, j) ≠ b := fun h => h1 (by rw [← h])
      rw [List.filter_cons_of_neg (by simpa using h1), ih hL.2]
      simp [hb]

/-- Whether the entry `(i,j)` is used. -/
def Used (c : NovCache) (μ : Nat → Nat) (i j : Nat) : Prop :=
  (μ i = 0 ∧ (μ j = 1 ∨ μ j = 0 ∧ (i, j) ∈ c.border)) ∨ (μ i = 1 ∧ μ j ≠ 2)

open Classical in
theorem novTerm_eq (β : BlockAct B V V) (c : NovCache) (hb : c.border.Nodup) (μ : Nat → Nat) (alpha : K) (x : Nat → V) (i : Nat) (yi : V)
    (e : Nat × B) (he : c.mask[e.1]? = some (μ e.1)) :
    novTerm β c alpha x i (μ i) yi e = .ok (yi + if Used c μ i e.1 then alpha • β.mul e.2 (x e.1) else 0) := by
  unfold novTerm Used
  rw [rd_ok.2 he]
  simp only [Res.ok_bind]
  by_cases h0 : μ i = 0
  · rw [if_pos h0]
    by_cases h1 : μ e.1 = 1
    · rw [if_pos h1, if_pos (.inl ⟨h0, .inl h1⟩)]
    · rw [if_neg h1]
      by_cases h2 : μ e.1 = 0
      · rw [if_pos h2, border_fold _ hb]
        by_cases h3 : (i, e.1) ∈ c.border
        · rw [if_pos h3, if_pos (.inl ⟨h0, .inr ⟨h2, h3⟩⟩)]
        · rw [if_neg h3, if_neg]
          rintro (⟨-, h | h⟩ | ⟨h, -⟩)
          · exact h1 h
          · exact h3 h.2
          · omega
      · rw [if_neg h2, if_neg, add_zero]
        rintro (⟨-, h | h⟩ | ⟨h, -⟩)
        · exact h1 h
        · exact h2 h.1
        · omega
  · rw [if_neg h0]
    by_cases h1 : μ i = 1
    · rw [if_pos h1]
      by_cases h2 : μ e.1 = 2
      · rw [if_neg (by simpa using h2), if_neg, add_zero]
        rintro (⟨h, -⟩ | ⟨-, h⟩)
        · exact h0 h
        · exact h h2
      · rw [if_pos h2, if_pos (.inr ⟨h1, h2⟩)]
    · rw [if_neg h1, if_neg, add_zero]
      rintro (⟨h, -⟩ | ⟨h, -⟩)
      · exact h0 h
      · exact h1 h

open Classical in
/-- The local sum: row by row, the used entries. -/
theorem novSum_ok (β : BlockAct B V V) (A : SpMat B) (hA : A.WF) (c : NovCache) (hb : c.border.Nodup) (μ : Nat → Nat)
    (hμ : ∀ i, i < A.n → c.mask[i]? = some (μ i)) (hc : ∀ i, i < A.n → ∀ e ∈ A.row i, c.mask[e.1]? = some (μ e.1)) (alpha : K) (x y : Nat → V) :
    ∃ y', novSum β A c alpha x y = .ok y' ∧
      ∀ i, y' i = y i + if i < A.n then ∑ j ∈ Finset.range A.m, (if Used c μ i j then alpha • β.mul (A.entry i j) (x j) else 0) else 0 := by
  have row : ∀ (r : Row B), ∀ i, (∀ e ∈ r, c.mask[e.1]? = some (μ e.1)) → ∀ yi : V, r.foldlM (novTerm β c alpha x i (μ i)) yi =
      .ok (yi + (r.map fun e => if Used c μ i e.1 then alpha • β.mul e.2 (x e.1) else 0).sum) := by
    intro r i
    induction r with
    | nil => intro _ yi; simp
    | cons e r ih =>
      intro hr yi
      rw [List.foldlM_cons, novTerm_eq β c hb μ alpha x i yi e (hr e (List.mem_cons_self ..)), Res.ok_bind,
        ih fun f hf => hr f (List.mem_cons_of_mem _ hf)]
      simp [add_assoc]
  unfold novSum
  obtain ⟨y', h1, h2⟩ := forRangeM_inv A.n (fun i y => (do
      let mi ← rd c.mask i
      let yi ← (A.row i).foldlM (novTerm β c alpha x i mi) (y i)
      .ok (upd y i yi) : Res (Nat → V)))
    (fun k y' => ∀ i, y' i = y i + if i < k then ∑ j ∈ Finset.range A.m, (if Used c μ i j then alpha • β.mul (A.entry i j) (x j) else 0) else 0)
    y (fun i => by simp) (fun k y1 hk hy1 => by
      refine ⟨upd y1 k (y1 k + ((A.row k).map fun e => if Used c μ k e.1 then alpha • β.mul e.2 (x e.1) else 0).sum), ?_, ?_⟩
      · rw [rd_ok.2 (hμ k hk)]
        simp only [Res.ok_bind]
        rw [row (A.row k) k (hc k hk), Res.ok_bind]
      · intro i
        by_cases hik : i = k
        · subst hik
          have e1 : upd y1 i (y1 i + ((A.row i).map fun e => if Used c μ i e.1 then alpha • β.mul e.2 (x e.1) else 0).sum) i =
              y1 i + ((A.row i).map fun e => if Used c μ i e.1 then alpha • β.mul e.2 (x e.1) else 0).sum := if_pos rfl
          rw [e1, hy1 i, if_neg (lt_irrefl _), if_pos (Nat.lt_succ_self _), add_zero]
          congr 1
          exact (Row.sum_val (A.row i) (hA i hk).1 A.m (hA i hk).2
            (fun j b => if Used c μ i j then alpha • β.mul b (x j) else 0) (by intro j; simp)).symm
        · have e1 : ∀ v, upd y1 k v i = y1 i := fun v => if_neg hik
          rw [e1, hy1 i]
          by_cases h : i < k
          · rw [if_pos h, if_pos (by omega)]
          · rw [if_neg h, if_neg (by omega)])
  exact ⟨y', h1, h2⟩

end sum
end Par
end Istl
