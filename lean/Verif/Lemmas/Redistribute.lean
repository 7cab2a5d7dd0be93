import Verif.Model.Redistribute
import Verif.Props.C54
import Verif.Lemmas.ParCoarsen
import Verif.Lemmas.MatMat

/-! # Lemmas: redistribution of matrices, the communication -/

namespace Istl
namespace Par
open Amg MatMat

variable {B V D S : Type}

/-! ## Messages of variable size -/

theorem mapM_row {row : List (Nat × B)} {f : Nat → Res D} {h : Nat × B → Res D} {it : Nat × B → D}
    (hf : ∀ j e, row[j]? = some e → f j = h e) (hh : ∀ e ∈ row, h e = .ok (it e)) :
    (List.range row.length).mapM f = .ok (row.map it) := by
  have key : ∀ (k : Nat), k ≤ row.length → (List.range k).mapM f = .ok ((row.take k).map it) := by
    intro k hk
    induction k with
    | zero => rfl
    | succ k ih =>
      have hget : row[k]? = some row[k] := List.getElem?_eq_getElem (by omega)
      rw [List.range_succ, List.mapM_append, ih (by omega), Res.ok_bind]
      have : [k].mapM f = .ok [it row[k]] := by
        simp only [List.mapM_cons, List.mapM_nil]
        rw [hf k _ hget, hh _ (List.getElem_mem _)]
        rfl
      rw [this, Res.ok_bind, List.take_add_one (l := row), hget, List.map_append]
      rfl
  simpa using key row.length (le_refl _)

theorem gatherAll_ok {row : Nat → List (Nat × B)} {f : Nat → Nat → Res D} {h : Nat × B → Res D} {it : Nat × B → D} (is : List Nat)
    (hf : ∀ i j e, (row i)[j]? = some e → f i j = h e) (hh : ∀ i ∈ is, ∀ e ∈ row i, h e = .ok (it e)) :
    gatherAll f (fun i => (row i).length) is = .ok ((is.map row).flatMap fun r => r.map it) := by
  induction is with
  | nil => rfl
  | cons i is ih =>
    unfold gatherAll
    rw [mapM_row (hf i) (hh i (List.mem_cons_self ..)), Res.ok_bind, ih fun i hi => hh i (List.mem_cons_of_mem _ hi), Res.ok_bind]
    rfl

theorem scatterItems_ok (scat : S → D → Nat → Res S) (i : Nat) : ∀ (l rest : List D) (s : S),
    scatterItems scat i l.length (l ++ rest) s = (l.foldlM (fun s d => scat s d i) s) >>= fun s => .ok (s, rest)
  | [], rest, s => rfl
  | d :: l, rest, s => by
    rw [List.length_cons, List.cons_append]
    unfold scatterItems
    rw [List.foldlM_cons]
    cases h : scat s d i with
    | ok s' => rw [Res.ok_bind, Res.ok_bind, scatterItems_ok scat i l rest s']
    | throw e => rfl
    | ub => rfl

theorem scatterAll_ok (scat : S → D → Nat → Res S) (size : Nat → Nat) {E : Type} (loc : E → Nat) (items : E → List D) :
    ∀ (L : List E) (s : S), (∀ e ∈ L, size (loc e) = (items e).length) →
    scatterAll scat size (L.map loc) (L.flatMap items) s =
      (L.flatMap fun e => (items e).map fun d => (loc e, d)).foldlM (fun s d => scat s d.2 d.1) s
  | [], s, _ => rfl
  | e :: L, s, h => by
    rw [List.map_cons, List.flatMap_cons]
    unfold scatterAll
    rw [h e (List.mem_cons_self ..), scatterItems_ok, List.flatMap_cons, List.foldlM_append, List.foldlM_map]
    cases h' : (items e).foldlM (fun s d => scat s d (loc e)) s with
    | ok s' => simp only [Res.ok_bind]; exact scatterAll_ok scat size loc items L s' fun e he => h e (List.mem_cons_of_mem _ he)
    | throw x => rfl
    | ub => rfl

/-! ## The interface -/

/-- What the receiver gets for its indices, in the order of the receive list. -/
theorem send_values [Inhabited V] {old new : PIS} (ho : PisOk old) (hn : PisOk new) (x : Nat → V) :
    (sendList isOwner isOwner old new).map x = (recvIdx isOwner isOwner new old).map fun e => valueAt old x e.g := by
  have h := congrArg (List.map Prod.fst) (message_eq isOwner isOwner ho hn x)
  have hl : (sendIdx isOwner isOwner old new).length = (recvIdx isOwner isOwner new old).length := by
    have := congrArg List.length (aligned isOwner isOwner ho hn)
    simpa using this
  rw [List.map_fst_zip (by rw [recvList_eq, sendList_eq]; simp [hl]), List.map_map] at h
  exact h

theorem redistributeOn_eq [Inhabited V] {P : Nat} {old new : Nat → PIS} (ho : ∀ p, p < P → PisOk (old p)) (source : Nat → Nat → V)
    (dest : Nat → V) {q : Nat} (hq : PisOk (new q)) (order : List Nat) (hord : ∀ p ∈ order, p < P) :
    redistributeOn old new source dest q order =
      ((order.map fun p => (recvIdx isOwner isOwner (new q) (old p)).map fun e => (valueAt (old p) (source p) e.g, e.loc)).flatten).foldl
        (fun d m => upd d m.2 m.1) dest := by
  unfold redistributeOn
  induction order generalizing dest with
  | nil => rfl
  | cons p rest ih =>
    rw [List.foldl_cons, ih _ fun p hp => hord p (List.mem_cons_of_mem _ hp), List.map_cons, List.flatten_cons, List.foldl_append]
    unfold scatter
    rw [message_eq isOwner isOwner (ho p (hord p (List.mem_cons_self ..))) hq]

theorem isOwner_iff {a : Attr} : isOwner a = true ↔ a = .owner := by simp [isOwner]

/-- A value arrives at every new owner index from the old owner, and at no other index. -/
theorem redistributeOn_spec [Inhabited V] {P : Nat} {old new : Nat → PIS} (ho : ∀ p, p < P → PisOk (old p))
    (hu : ∀ p q, p < P → q < P → ∀ e ∈ old p, ∀ f ∈ old q, e.attr = .owner → f.attr = .owner → e.g = f.g → p = q)
    (source : Nat → Nat → V) (dest : Nat → V) {q : Nat} (hq : PisOk (new q)) (order : List Nat) (hord : order.Perm (List.range P)) :
    (∀ p, p < P → ∀ e ∈ new q, e.attr = .owner → ∀ e0 ∈ old p, e0.attr = .owner → e0.g = e.g →
      redistributeOn old new source dest q order e.loc = source p e0.loc) ∧
    ∀ i, (∀ e ∈ new q, e.attr = .owner → e.loc ≠ i) → redistributeOn old new source dest q order i = dest i := by
  have hlt : ∀ p ∈ order, p < P := fun p hp => List.mem_range.1 (hord.mem_iff.1 hp)
  have hmem : ∀ m : V × Nat, m ∈ (order.map fun p => (recvIdx isOwner isOwner (new q) (old p)).map
      fun e => (valueAt (old p) (source p) e.g, e.loc)).flatten ↔
      ∃ p, p < P ∧ ∃ e ∈ new q, e.attr = .owner ∧ ∃ e0 ∈ old p, e0.g = e.g ∧ e0.attr = .owner ∧ m = (source p e0.loc, e.loc) := by
    intro m
    simp only [List.mem_flatten, List.mem_map]
    constructor
    · rintro ⟨l, ⟨p, hp, rfl⟩, hm⟩
      obtain ⟨e, he, rfl⟩ := List.mem_map.1 hm
      obtain ⟨h1, h2, r, h3, h4, h5⟩ := (mem_recvIdx (ho p (hlt p hp))).1 he
      refine ⟨p, hlt p hp, e, h1, isOwner_iff.1 h2, r, h3, h4, isOwner_iff.1 h5, ?_⟩
      simp only [valueAt, (lookup_iff (ho p (hlt p hp)) e.g r).2 ⟨h3, h4⟩]
    · rintro ⟨p, hp, e, he, ha, e0, h1, h2, h3, rfl⟩
      refine ⟨_, ⟨p, hord.mem_iff.2 (List.mem_range.2 hp), rfl⟩, List.mem_map.2 ⟨e, ?_, ?_⟩⟩
      · exact (mem_recvIdx (ho p hp)).2 ⟨he, isOwner_iff.2 ha, e0, h1, h2, isOwner_iff.2 h3⟩
      · simp only [valueAt, (lookup_iff (ho p hp) e.g e0).2 ⟨h1, h2⟩]
  rw [redistributeOn_eq ho source dest hq order hlt]
  constructor
  · intro p hp e he ha e0 h0 ha0 hg
    refine (fold_copy _ dest e.loc).2 _ ⟨_, (hmem _).2 ⟨p, hp, e, he, ha, e0, h0, hg, ha0, rfl⟩, rfl⟩ ?_
    intro m hm hl
    obtain ⟨p', hp', e', he', ha', e0', h0', hg', ha0', rfl⟩ := (hmem m).1 hm
    have hee : e' = e := idx_eq_of_loc hq he' he hl
    subst hee
    have hpp : p' = p := hu p' p hp' hp e0' h0' e0 h0 ha0' ha0 (hg'.trans hg.symm)
    subst hpp
    have : e0' = e0 := idx_eq_of_g (ho p' hp) h0' h0 (hg'.trans hg.symm)
    rw [this]
  · intro i hi
    refine (fold_copy _ dest i).1 ?_
    intro m hm hl
    obtain ⟨p', hp', e', he', ha', e0', h0', hg', ha0', rfl⟩ := (hmem m).1 hm
    exact hi e' he' ha' hl

/-! ## One communication as a fold over all records -/

/-- The records that process `q` receives: new local row index and item. -/
def records (old new : Nat → PIS) (A : Nat → SpMat B) (it : Nat → Nat × B → D) (q : Nat) (order : List Nat) : List (Nat × D) :=
  order.flatMap fun p => (recvIdx isOwner isOwner (new q) (old p)).flatMap fun e =>
    ((valueAt (V := List (Nat × B)) (old p) (A p).row e.g).map (it p)).map fun d => (e.loc, d)

theorem redistributeVar_eq {P : Nat} {old new : Nat → PIS} (ho : ∀ p, p < P → PisOk (old p)) {q : Nat} (hq : PisOk (new q))
    (A : Nat → SpMat B) (f : Nat → Nat → Nat → Res D) (h : Nat → Nat × B → Res D) (it : Nat → Nat × B → D)
    (hf : ∀ p i j e, ((A p).row i)[j]? = some e → f p i j = h p e)
    (hh : ∀ p, p < P → ∀ e ∈ old p, e.attr = .owner → ∀ x ∈ (A p).row e.loc, h p x = .ok (it p x))
    (scat : S → D → Nat → Res S) (rsize : Nat → Nat)
    (hr : ∀ p, p < P → ∀ e ∈ recvIdx isOwner isOwner (new q) (old p),
      rsize e.loc = (valueAt (V := List (Nat × B)) (old p) (A p).row e.g).length)
    (order : List Nat) (hord : ∀ p ∈ order, p < P) (s : S) :
    redistributeVar old new f (fun p i => ((A p).row i).length) scat rsize q order s =
      (records old new A it q order).foldlM (fun s d => scat s d.2 d.1) s := by
  unfold redistributeVar records
  induction order generalizing s with
  | nil => rfl
  | cons p rest ih =>
    have hp := hord p (List.mem_cons_self ..)
    rw [List.foldlM_cons, List.flatMap_cons, List.foldlM_append]
    have e1 : gatherAll (f p) (fun i => ((A p).row i).length) (sendList isOwner isOwner (old p) (new q)) =
        .ok ((recvIdx isOwner isOwner (new q) (old p)).flatMap
          fun e => (valueAt (V := List (Nat × B)) (old p) (A p).row e.g).map (it p)) := by
      rw [gatherAll_ok (it := it p) _ (hf p) ?_, send_values (V := List (Nat × B)) (ho p hp) hq, List.flatMap_map]
      intro i hi x hx
      rw [sendList_eq] at hi
      obtain ⟨e, he, rfl⟩ := List.mem_map.1 hi
      unfold sendIdx at he
      obtain ⟨he1, he2⟩ := List.mem_filter.1 he
      refine hh p hp e he1 ?_ x hx
      cases hl : lookup (new q) e.g with
      | none => rw [hl] at he2; cases he2
      | some r => rw [hl] at he2; simp only [Bool.and_eq_true] at he2; exact isOwner_iff.1 he2.1
    rw [e1, Res.ok_bind, recvList_eq, scatterAll_ok]
    · cases h' : List.foldlM (fun s d => scat s d.2 d.1) s ((recvIdx isOwner isOwner (new q) (old p)).flatMap fun e =>
        ((valueAt (V := List (Nat × B)) (old p) (A p).row e.g).map (it p)).map fun d => (e.loc, d)) with
      | ok s' => rw [Res.ok_bind]; exact ih (fun p hp => hord p (List.mem_cons_of_mem _ hp)) s'
      | throw x => rfl
      | ub => rfl
    · intro e he
      rw [hr p hp e he, List.length_map]

theorem mem_records {P : Nat} {old new : Nat → PIS} (ho : ∀ p, p < P → PisOk (old p)) (A : Nat → SpMat B) (it : Nat → Nat × B → D)
    {q : Nat} (order : List Nat) (hord : order.Perm (List.range P)) (m : Nat × D) :
    m ∈ records old new A it q order ↔ ∃ p, p < P ∧ ∃ e ∈ new q, e.attr = .owner ∧ ∃ e0 ∈ old p, e0.g = e.g ∧ e0.attr = .owner ∧
      ∃ x ∈ (A p).row e0.loc, m = (e.loc, it p x) := by
  have hlt : ∀ p ∈ order, p < P := fun p hp => List.mem_range.1 (hord.mem_iff.1 hp)
  unfold records
  simp only [List.mem_flatMap, List.mem_map]
  constructor
  · rintro ⟨p, hp, e, he, d, ⟨x, hx, rfl⟩, rfl⟩
    obtain ⟨h1, h2, r, h3, h4, h5⟩ := (mem_recvIdx (ho p (hlt p hp))).1 he
    simp only [valueAt, (lookup_iff (ho p (hlt p hp)) e.g r).2 ⟨h3, h4⟩] at hx
    exact ⟨p, hlt p hp, e, h1, isOwner_iff.1 h2, r, h3, h4, isOwner_iff.1 h5, x, hx, rfl⟩
  · rintro ⟨p, hp, e, he, ha, e0, h1, h2, h3, x, hx, rfl⟩
    refine ⟨p, hord.mem_iff.2 (List.mem_range.2 hp), e,
      (mem_recvIdx (ho p hp)).2 ⟨he, isOwner_iff.2 ha, e0, h1, h2, isOwner_iff.2 h3⟩, _, ⟨x, ?_, rfl⟩, rfl⟩
    simp only [valueAt, (lookup_iff (ho p hp) e.g e0).2 ⟨h1, h2⟩]
    exact hx

end Par
end Istl
