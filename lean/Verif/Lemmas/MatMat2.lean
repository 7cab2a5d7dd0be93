import Verif.Lemmas.MatMat

/-! Helper lemmas about the `A B^T` product. -/

namespace Istl
namespace MatMat
open Bcrs
variable {α β γ S : Type}

/-- pairs of entries with the same column -/
def common (as : List (Nat × α)) (bs : List (Nat × β)) : List (α × β) :=
  as.filterMap fun p => (bs.find? fun q => q.1 == p.1).map fun q => (p.2, q.2)

theorem find_dropWhile_lt (bs : List (Nat × β)) (k p : Nat) (h : k ≤ p) :
    (bs.dropWhile fun f => f.1 < k).find? (fun q => q.1 == p) = bs.find? fun q => q.1 == p := by
  induction bs with
  | nil => rfl
  | cons b bs ih =>
    by_cases hb : b.1 < k
    · rw [List.dropWhile_cons_of_pos (by simpa using hb), ih, List.find?_cons_of_neg]
      simp; omega
    · rw [List.dropWhile_cons_of_neg (by simpa using hb)]

theorem asc_dropWhile {bs : List (Nat × β)} (h : Row.Asc bs) (k : Nat) : Row.Asc (bs.dropWhile fun f => f.1 < k) := by
  unfold Row.Asc at *
  exact h.sublist ((List.dropWhile_sublist _).map _)

theorem find_none_of_gt {k k' : Nat} {b : β} {bs : List (Nat × β)} (h : Row.Asc ((k', b) :: bs)) (hk : k < k') :
    ((k', b) :: bs).find? (fun q => q.1 == k) = none := by
  rw [List.find?_eq_none]
  intro q hq
  rw [Row.Asc, List.map_cons, List.pairwise_cons] at h
  rcases List.mem_cons.mp hq with rfl | hq
  · simp; omega
  · have := h.1 q.1 (List.mem_map_of_mem hq)
    simp; simp at this; omega

theorem dropWhile_head_ge {bs : List (Nat × β)} {k k' : Nat} {b : β} {bs' : List (Nat × β)}
    (h : (bs.dropWhile fun f => f.1 < k) = (k', b) :: bs') : k ≤ k' := by
  have := List.head?_dropWhile_not (fun f : Nat × β => decide (f.1 < k)) bs
  rw [h] at this
  simpa using this

theorem common_drop {as : List (Nat × α)} (bs : List (Nat × β)) (k : Nat) (h : ∀ e ∈ as, k ≤ e.1) :
    common as (bs.dropWhile fun f => f.1 < k) = common as bs := by
  unfold common
  apply List.filterMap_congr
  intro e he
  rw [find_dropWhile_lt bs k e.1 (h e he)]

/-- what the walk does: without `do_break` the functor is called on all pairs, with it on the first one -/
theorem walk_eq (F : Func2 α β S) (j : Nat) (as : List (Nat × α)) : ∀ (bs : List (Nat × β)) (called : Bool) (s : S), Row.Asc as →
    Row.Asc bs → walk F j as bs called s =
      if F.doBreak then
        match common as bs with
        | [] => .ok (called, s)
        | p :: _ => F.call p.1 p.2 j s >>= fun s => .ok (true, s)
      else (common as bs).foldlM (fun s p => F.call p.1 p.2 j s) s >>= fun s => .ok (called || !(common as bs).isEmpty, s) := by
  induction as with
  | nil => intro bs called s _ _; cases F.doBreak <;> simp [walk, common]
  | cons e as ih =>
    obtain ⟨k, a⟩ := e
    intro bs called s ha hb
    have ha' : Row.Asc as := by
      rw [Row.Asc, List.map_cons, List.pairwise_cons] at ha; exact ha.2
    have hge : ∀ e ∈ as, k ≤ e.1 := by
      intro e he
      rw [Row.Asc, List.map_cons, List.pairwise_cons] at ha
      have := ha.1 e.1 (List.mem_map_of_mem he)
      simp at this; omega
    have hcons : common ((k, a) :: as) bs = (match (bs.dropWhile fun f => f.1 < k).find? (fun q => q.1 == k) with
        | none => common as bs
        | some q => (a, q.2) :: common as bs) := by
      unfold common
      rw [find_dropWhile_lt bs k k (le_refl k)]
      cases hf : bs.find? (fun q => q.1 == k) with
      | none => rw [List.filterMap_cons_none (by simp [hf])]
      | some q => rw [List.filterMap_cons_some (b := (a, q.2)) (by simp [hf])]
    rw [hcons]
    unfold walk
    have hasc := asc_dropWhile hb k
    have hcd := common_drop bs k hge
    cases hd : bs.dropWhile (fun f => f.1 < k) with
    | nil =>
      rw [hd] at hcd
      dsimp only [List.find?_nil]
      rw [ih [] called s ha' (by simp [Row.Asc]), hcd]
    | cons q bs' =>
      obtain ⟨k', b⟩ := q
      rw [hd] at hcd hasc
      dsimp only
      by_cases hk : k' = k
      · subst hk
        rw [if_pos rfl, List.find?_cons_of_pos (by simp)]
        dsimp only
        by_cases hbr : F.doBreak
        · simp [hbr]
        · simp only [hbr, if_false, List.foldlM_cons, Bool.false_eq_true]
          cases hc : F.call a b j s with
          | ok t =>
            rw [Res.ok_bind, Res.ok_bind, ih _ true t ha' hasc, hcd]
            simp [hbr]
          | throw e => rfl
          | ub => rfl
      · have hlt : k < k' := by
          have := dropWhile_head_ge hd; omega
        rw [if_neg hk, find_none_of_gt hasc hlt, ih _ called s ha' hasc, hcd]

theorem common_ne_nil (as : Row α) (bs : Row β) : common as bs ≠ [] ↔ ∃ k, as.Has k ∧ bs.Has k := by
  constructor
  · intro h
    obtain ⟨p, hp⟩ := List.exists_mem_of_ne_nil _ h
    unfold common at hp
    rw [List.mem_filterMap] at hp
    obtain ⟨e, he, hq⟩ := hp
    cases hf : bs.find? (fun q => q.1 == e.1) with
    | none => rw [hf] at hq; cases hq
    | some q =>
      have h1 := List.mem_of_find?_eq_some hf
      have h2 := List.find?_some hf
      simp at h2
      exact ⟨e.1, ⟨e.2, he⟩, q.2, by rw [← h2]; exact h1⟩
  · rintro ⟨k, ⟨a, ha⟩, b, hb⟩ hnil
    cases hf : bs.find? (fun q => q.1 == k) with
    | none =>
      rw [List.find?_eq_none] at hf
      have := hf _ hb
      simp at this
    | some q =>
      have : (a, q.2) ∈ common as bs := by
        unfold common
        rw [List.mem_filterMap]
        exact ⟨(k, a), ha, by simp [hf]⟩
      rw [hnil] at this
      cases this

theorem sum_common [AddCommGroup α] [AddCommGroup β] [AddCommGroup γ] (mul : α →+ β →+ γ) (as : Row α) (bs : Row β) (ha : as.Asc) (m : Nat)
    (hm : ∀ e ∈ as, e.1 < m) :
    ((common as bs).map fun p => mul p.1 p.2).sum = ∑ k ∈ Finset.range m, mul (as.val k) (bs.val k) := by
  rw [Row.sum_val as ha m hm (fun k a => mul a (bs.val k)) (by simp)]
  clear ha hm
  unfold common
  induction as with
  | nil => rfl
  | cons e as ih =>
    rw [List.map_cons, List.sum_cons, ← ih]
    cases hf : bs.find? (fun q => q.1 == e.1) with
    | none =>
      rw [List.filterMap_cons_none (by simp [hf])]
      have : bs.val e.1 = 0 := by simp [Row.val, hf]
      rw [this]; simp
    | some q =>
      rw [List.filterMap_cons_some (b := (e.2, q.2)) (by simp [hf]), List.map_cons, List.sum_cons]
      have : bs.val e.1 = q.2 := by simp [Row.val, hf]
      rw [this]

/-- do row `i` of `A` and row `j` of `B` share a column -/
def meet (A : SpMat α) (B : SpMat β) (i j : Nat) : Bool := !(common (A.row i) (B.row j)).isEmpty

theorem meet_iff (A : SpMat α) (B : SpMat β) (i j : Nat) : meet A B i j = true ↔ ∃ k, (A.row i).Has k ∧ (B.row j).Has k := by
  rw [← common_ne_nil]
  unfold meet
  simp [List.isEmpty_iff]

/-- columns of row `i` of the product among the first `t` -/
def pcols (A : SpMat α) (B : SpMat β) (i t : Nat) : List Nat := (List.range t).filter fun j => meet A B i j

theorem pcols_succ (A : SpMat α) (B : SpMat β) (i t : Nat) :
    pcols A B i (t + 1) = pcols A B i t ++ (if meet A B i t then [t] else []) := by
  unfold pcols
  rw [List.range_succ, List.filter_append]
  congr 1
  by_cases h : meet A B i t <;> simp [h]

/-- one column step for a functor with `do_break` -/
theorem col_break (F : Func2 α β S) (hF : F.doBreak = true) (A : SpMat α) (B : SpMat β) (hA : A.WF) (hB : B.WF) (i j : Nat) (hi : i < A.n)
    (hj : j < B.n) (s s' : S) (hc : ∀ a b, F.call a b j s = .ok s') (hn : F.nextCol s' = .ok s') :
    traverse2Col F A B i j s = .ok (if meet A B i j then s' else s) := by
  unfold traverse2Col meet
  rw [walk_eq F j _ _ _ _ (hA i hi).1 (hB j hj).1, if_pos hF]
  cases common (A.row i) (B.row j) with
  | nil => rfl
  | cons p ps => simp [hc, hn]

theorem count_row (A : SpMat α) (B : SpMat β) (hA : A.WF) (hB : B.WF) (i : Nat) (hi : i < A.n) (t : Nat) (ht : t ≤ B.n) (c : Nat) :
    forRangeM t (fun j s => traverse2Col counter A B i j s) c = .ok (c + (pcols A B i t).length) := by
  induction t with
  | zero => rfl
  | succ t ih =>
    rw [forRangeM_succ, ih (by omega), Res.ok_bind,
      col_break counter rfl A B hA hB i t hi (by omega) _ (c + (pcols A B i t).length + 1) (fun _ _ => rfl) rfl, pcols_succ]
    by_cases h : meet A B i t <;> simp [h]
    omega

theorem count_all (A : SpMat α) (B : SpMat β) (hA : A.WF) (hB : B.WF) (t : Nat) (ht : t ≤ A.n) :
    forRangeM t (fun i s => traverse2Row counter A B i s) 0 = .ok (((List.range t).map fun i => (pcols A B i B.n).length).sum) := by
  induction t with
  | zero => rfl
  | succ t ih =>
    rw [forRangeM_succ, ih (by omega), Res.ok_bind]
    unfold traverse2Row
    rw [count_row A B hA hB t (by omega) B.n (le_refl _), List.range_succ, List.map_append, List.sum_append]
    simp [counter]

theorem pat_row (A : SpMat α) (B : SpMat β) (hA : A.WF) (hB : B.WF) (i : Nat) (hi : i < A.n) (t : Nat) (ht : t ≤ B.n)
    (d : List (List Nat)) :
    forRangeM t (fun j s => traverse2Col patternInit A B i j s) ([], d) = .ok (pcols A B i t, d) := by
  induction t with
  | zero => rfl
  | succ t ih =>
    rw [forRangeM_succ, ih (by omega), Res.ok_bind,
      col_break patternInit rfl A B hA hB i t hi (by omega) _ (pcols A B i t ++ [t], d) (fun _ _ => rfl) rfl, pcols_succ]
    by_cases h : meet A B i t <;> simp [h]

theorem pat_all (A : SpMat α) (B : SpMat β) (hA : A.WF) (hB : B.WF) (t : Nat) (ht : t ≤ A.n) :
    forRangeM t (fun i s => traverse2Row patternInit A B i s) ([], []) = .ok ([], (List.range t).map fun i => pcols A B i B.n) := by
  induction t with
  | zero => rfl
  | succ t ih =>
    rw [forRangeM_succ, ih (by omega), Res.ok_bind]
    unfold traverse2Row
    rw [pat_row A B hA hB t (by omega) B.n (le_refl _), List.range_succ, List.map_append]
    simp [patternInit]

/-! ### Accumulation along the row -/

section Acc
variable [AddCommGroup γ] (add : γ → α → β → γ) (mul : α → β → γ) (hadd : ∀ c a b, add c a b = c + mul a b)
include hadd

theorem acc_pairs (L : List (α × β)) (j r : Nat) (C : SpMat γ) (hr : r < C.n) (L1 L2 : Row γ) (x : γ) (h : C.row r = L1 ++ (j, x) :: L2) :
    L.foldlM (fun s p => (accumulator2 add).call p.1 p.2 j s) (C, r, L1.length) =
      .ok ({ C with row := upd C.row r (L1 ++ (j, x + (L.map fun p => mul p.1 p.2).sum) :: L2) }, r, L1.length) := by
  induction L generalizing C x with
  | nil =>
    simp only [List.foldlM_nil, List.map_nil, List.sum_nil, add_zero, ← h]
    have : upd C.row r (C.row r) = C.row := by funext k; simp only [upd]; split; simp [*]; rfl
    rw [this]; rfl
  | cons p L ih =>
    rw [List.foldlM_cons]
    have h1 : (accumulator2 add).call p.1 p.2 j (C, r, L1.length) =
        .ok ({ C with row := upd C.row r (L1 ++ (j, x + mul p.1 p.2) :: L2) }, r, L1.length) := by
      simp [accumulator2, rowAt, hr, h, rd, wr, hadd]
    rw [h1, Res.ok_bind, ih { C with row := upd C.row r (L1 ++ (j, x + mul p.1 p.2) :: L2) } hr (x + mul p.1 p.2) (by simp [upd])]
    rw [List.map_cons, List.sum_cons, add_assoc]
    congr 3
    funext k
    simp only [upd]
    split <;> rfl

/-- value computed for `(i,j)` -/
def pval (A : SpMat α) (B : SpMat β) (i j : Nat) : γ := ((common (A.row i) (B.row j)).map fun p => mul p.1 p.2).sum

/-- row `i` when the first `t` columns are done -/
def prow (A : SpMat α) (B : SpMat β) (i t : Nat) : Row γ :=
  (pcols A B i t).map (fun j => (j, pval mul A B i j)) ++ ((List.range' t (B.n - t)).filter fun j => meet A B i j).map fun j => (j, 0)

omit hadd in
theorem prow_step (A : SpMat α) (B : SpMat β) (i t : Nat) (ht : t < B.n) :
    prow mul A B i t = (pcols A B i t).map (fun j => (j, pval mul A B i j)) ++
      (if meet A B i t then [(t, 0)] else []) ++ ((List.range' (t + 1) (B.n - (t + 1))).filter fun j => meet A B i j).map fun j => (j, 0) := by
  unfold prow
  have : B.n - t = (B.n - (t + 1)) + 1 := by omega
  rw [this, List.range'_succ, List.filter_cons]
  by_cases h : meet A B i t <;> simp [h]

theorem acc_row (A : SpMat α) (B : SpMat β) (hA : A.WF) (hB : B.WF) (i : Nat) (hi : i < A.n) (C : SpMat γ) (hC : i < C.n)
    (h0 : C.row i = prow mul A B i 0) (t : Nat) (ht : t ≤ B.n) :
    forRangeM t (fun j s => traverse2Col (accumulator2 add) A B i j s) (C, i, 0) =
      .ok ({ C with row := upd C.row i (prow mul A B i t) }, i, (pcols A B i t).length) := by
  induction t with
  | zero =>
    have : upd C.row i (prow mul A B i 0) = C.row := by funext k; simp only [upd, ← h0]; split; simp [*]; rfl
    rw [this]; rfl
  | succ t ih =>
    rw [forRangeM_succ, ih (by omega), Res.ok_bind]
    unfold traverse2Col
    rw [walk_eq (accumulator2 add) t _ _ _ _ (hA i hi).1 (hB t (by omega)).1, if_neg (by simp [accumulator2])]
    have hstep := prow_step mul A B i t (by omega)
    have hsucc : prow mul A B i (t + 1) = (pcols A B i t).map (fun j => (j, pval mul A B i j)) ++
        (if meet A B i t then [(t, pval mul A B i t)] else []) ++
        ((List.range' (t + 1) (B.n - (t + 1))).filter fun j => meet A B i j).map fun j => (j, 0) := by
      unfold prow
      rw [pcols_succ]
      by_cases h : meet A B i t <;> simp [h]
    by_cases h : meet A B i t
    · rw [if_pos h] at hstep hsucc
      have hl : (pcols A B i t).length = ((pcols A B i t).map fun j => (j, pval mul A B i j)).length := by simp
      rw [hl, acc_pairs add mul hadd (common (A.row i) (B.row t)) t i { C with row := upd C.row i (prow mul A B i t) } hC
        ((pcols A B i t).map fun j => (j, pval mul A B i j))
        (((List.range' (t + 1) (B.n - (t + 1))).filter fun j => meet A B i j).map fun j => (j, 0)) 0
        (by simp [upd, hstep])]
      have hne : (common (A.row i) (B.row t)).isEmpty = false := by simpa [meet] using h
      simp only [Res.ok_bind, hne, Bool.not_false, Bool.or_true, if_true]
      rw [hsucc, pcols_succ, if_pos h]
      simp only [accumulator2, List.length_append, List.length_map, List.length_singleton, zero_add]
      congr 2
      have : ∀ r1 r2 : Row γ, upd (upd C.row i r1) i r2 = upd C.row i r2 := by
        intro r1 r2; funext k; simp only [upd]; split <;> rfl
      rw [this, pval]
      simp
    · rw [if_neg h] at hstep hsucc
      have hne : common (A.row i) (B.row t) = [] := by simpa [meet] using h
      rw [hne, pcols_succ, if_neg h]
      simp only [List.foldlM_nil, Res.pure_eq, Res.ok_bind, List.isEmpty_nil, Bool.not_true, Bool.or_false, List.append_nil]
      rw [hsucc, ← hstep]
      rfl

theorem acc_all (A : SpMat α) (B : SpMat β) (hA : A.WF) (hB : B.WF) (C : SpMat γ) (hC : C.n = A.n)
    (h0 : ∀ i < A.n, C.row i = prow mul A B i 0) (t : Nat) (ht : t ≤ A.n) :
    forRangeM t (fun i s => traverse2Row (accumulator2 add) A B i s) (C, 0, 0) =
      .ok ({ C with row := fun i => if i < t then prow mul A B i B.n else C.row i }, t, 0) := by
  induction t with
  | zero => simp [forRangeM_zero]
  | succ t ih =>
    rw [forRangeM_succ, ih (by omega), Res.ok_bind]
    unfold traverse2Row
    rw [acc_row add mul hadd A B hA hB t (by omega) { C with row := fun i => if i < t then prow mul A B i B.n else C.row i }
      (by simp only; omega) (by simp [h0 t (by omega)]) B.n (le_refl _)]
    simp only [Res.ok_bind, accumulator2]
    congr 3
    funext k
    simp only [upd]
    by_cases h : k = t
    · simp [h]
    · have : k < t + 1 ↔ k < t := by omega
      simp [h, this]

end Acc

end MatMat
end Istl
