import Verif.Lemmas.Iter
import Verif.Props.C01
import Verif.Props.C08

/-! Reading loops, writing loops, `find`, integer positions. -/

namespace Istl
namespace Iter
open Bcrs BcrsWorld
variable {B τ : Type}

theorem walk_read (x : Nat) (g : Nat → Nat → B → τ → τ) (l : List (Nat × Nat × B)) (s : τ) :
    walk x (fun i c b s => ((none : Option B), g i c b s)) l s = ([], l.foldl (fun s e => g e.1 e.2.1 e.2.2 s) s) := by
  induction l generalizing s with
  | nil => rfl
  | cons e l ih => obtain ⟨i, c, b⟩ := e; simp only [walk, List.foldl_cons]; exact ih _

theorem walk_write (x : Nat) (g : Nat → Nat → B → B) (l : List (Nat × Nat × B)) (s : τ) :
    walk x (fun i c b (s : τ) => (some (g i c b), s)) l s = (l.map fun e => .modify x e.1 e.2.1 fun _ => g e.1 e.2.1 e.2.2, s) := by
  induction l generalizing s with
  | nil => rfl
  | cons e l ih => obtain ⟨i, c, b⟩ := e; simp only [walk, List.map_cons, ih]

/-- The last assignment to the entry. -/
def look (l : List (Nat × Nat × B)) (i c : Nat) (b : B) : B :=
  l.foldl (fun acc e => if e.1 = i ∧ e.2.1 = c then e.2.2 else acc) b

theorem look_const {l : List (Nat × Nat × B)} {i c : Nat} {y : B} (h : ∀ e ∈ l, e.1 = i → e.2.1 = c → e.2.2 = y) :
    look l i c y = y := by
  unfold look
  induction l with
  | nil => rfl
  | cons e l ih =>
    rw [List.foldl_cons]
    have : (if e.1 = i ∧ e.2.1 = c then e.2.2 else y) = y := by
      split
      · rename_i hh; exact h e (by simp) hh.1 hh.2
      · rfl
    rw [this]
    exact ih fun e he => h e (by simp [he])

theorem look_mem {l : List (Nat × Nat × B)} {i c : Nat} {y : B} (b : B) (h : ∀ e ∈ l, e.1 = i → e.2.1 = c → e.2.2 = y)
    (hm : (i, c, y) ∈ l) : look l i c b = y := by
  induction l generalizing b with
  | nil => simp at hm
  | cons e l ih =>
    by_cases he : e.1 = i ∧ e.2.1 = c
    · have : look (e :: l) i c b = look l i c y := by
        unfold look
        rw [List.foldl_cons, if_pos he, h e (by simp) he.1 he.2]
      rw [this]
      exact look_const fun e he => h e (by simp [he])
    · have hm' : (i, c, y) ∈ l := by
        rcases List.mem_cons.mp hm with h1 | h1
        · exact absurd ⟨by rw [← h1], by rw [← h1]⟩ he
        · exact h1
      have : look (e :: l) i c b = look l i c b := by
        unfold look
        rw [List.foldl_cons, if_neg he]
      rw [this]
      exact ih b (fun e he => h e (by simp [he])) hm'

theorem mapIdx_modify (l : List (Nat × Nat × B)) (e : Nat × Nat × B) (rows : List (Row B)) :
    (rows.modify e.1 (mapAt e.2.1 fun _ => e.2.2)).mapIdx (fun i row => row.map fun p => (p.1, look l i p.1 p.2)) =
      rows.mapIdx (fun i row => row.map fun p => (p.1, look (e :: l) i p.1 p.2)) := by
  apply List.ext_getElem (by simp)
  intro i h1 h2
  simp only [List.getElem_mapIdx, List.getElem_modify]
  split
  · rename_i he
    simp only [mapAt, List.map_map]
    apply List.map_congr_left
    intro p _
    simp only [Function.comp_apply]
    unfold look
    rw [List.foldl_cons]
    by_cases hp : p.1 = e.2.1
    · rw [if_pos hp, if_pos ⟨he, hp.symm⟩]
    · rw [if_neg hp, if_neg fun h => hp h.2.symm]
  · rename_i he
    apply List.map_congr_left
    intro p _
    unfold look
    rw [List.foldl_cons, if_neg fun h => he h.1]

theorem run_writes (z : B) (x : Nat) : ∀ (l : List (Nat × Nat × B)) (S : State B) (v : Val B), S[x]? = some (some v) →
    (BcrsWorld.run z S (l.map fun e => .modify x e.1 e.2.1 fun _ => e.2.2))[x]? =
      some (some { v with rows := v.rows.mapIdx fun i row => row.map fun p => (p.1, look l i p.1 p.2) })
  | [], S, v, hv => by
    have : (v.rows.mapIdx fun i row => row.map fun p => (p.1, look [] i p.1 p.2)) = v.rows := by
      apply List.ext_getElem (by simp)
      intro i h1 h2
      simp [look]
    simp only [List.map_nil, BcrsWorld.run, List.foldl_nil, this, hv]
  | e :: l, S, v, hv => by
    rw [List.map_cons]
    have h1 : (BcrsWorld.apply z S (.modify x e.1 e.2.1 fun _ => e.2.2))[x]? =
        some (some { v with rows := v.rows.modify e.1 (mapAt e.2.1 fun _ => e.2.2) }) := by
      simp only [BcrsWorld.apply, upd_eq _ hv]
      simp [(List.getElem?_eq_some_iff.mp hv).1]
    have := run_writes z x l _ _ h1
    simp only [BcrsWorld.run, List.foldl_cons] at this ⊢
    rw [this]
    simp only [mapIdx_modify]

theorem mem_order {α : Type} (d : Dir) (l : List α) (a : α) : a ∈ d.order l ↔ a ∈ l := by
  cases d <;> simp [Dir.order]

theorem mem_visits (dr dc : Dir) (rows : List (Row B)) (i c : Nat) (b : B) :
    (i, c, b) ∈ visits dr dc rows ↔ ∃ row, rows[i]? = some row ∧ (c, b) ∈ row := by
  simp only [visits, List.mem_flatMap, mem_order, List.mem_map, Prod.exists, Prod.mk.injEq, List.mem_zipIdx_iff_getElem?]
  constructor
  · rintro ⟨row, k, h1, c', b', h2, rfl, rfl, rfl⟩
    exact ⟨row, h1, h2⟩
  · rintro ⟨row, h1, h2⟩
    exact ⟨row, i, h1, c, b, h2, rfl, rfl, rfl⟩

theorem writes_rows (dr dc : Dir) (g : Nat → Nat → B → B) (rows : List (Row B)) (hasc : ∀ r ∈ rows, Row.Asc r) :
    (rows.mapIdx fun i row => row.map fun p => (p.1, look ((visits dr dc rows).map fun e => (e.1, e.2.1, g e.1 e.2.1 e.2.2))
      i p.1 p.2)) = mapEntries g rows := by
  unfold mapEntries
  apply List.ext_getElem (by simp)
  intro i h1 h2
  simp only [List.getElem_mapIdx]
  apply List.map_congr_left
  rintro ⟨c, b⟩ hp
  have hi : i < rows.length := by simpa using h1
  congr 1
  apply look_mem
  · intro e he e1 e2
    obtain ⟨⟨i', c', b'⟩, hm, rfl⟩ := List.mem_map.mp he
    simp only at e1 e2 ⊢
    subst e1 e2
    obtain ⟨row, r1, r2⟩ := (mem_visits dr dc rows _ _ _).1 hm
    rw [List.getElem?_eq_getElem hi] at r1
    cases r1
    have hnd : ((rows[i']).map Prod.fst).Nodup := (hasc _ (List.getElem_mem hi)).imp fun h => Nat.ne_of_lt h
    have := List.inj_on_of_nodup_map hnd r2 hp rfl
    rw [Prod.mk.injEq] at this
    rw [this.2]
  · rw [List.mem_map]
    exact ⟨(i, c, b), (mem_visits dr dc rows i c b).2 ⟨_, List.getElem?_eq_getElem hi, hp⟩, rfl⟩

/-! ### Integer positions -/

theorem rowAt_eq {W : Nat} {o : Obj B} {q : Int} {k : Nat} (hW : 0 < W) (h : (k : Int) = q % (W : Int)) :
    rowAt W o q = ⟨o.rows, k⟩ := by
  unfold rowAt
  rw [← h]; rfl

theorem toNat_emod {W : Nat} (hW : 0 < W) (q : Int) : ((q % (W : Int)).toNat : Int) = q % (W : Int) :=
  Int.toNat_of_nonneg (Int.emod_nonneg _ (by omega))

theorem signed_eq {W k : Nat} {δ : Int} (hW : 0 < W) (hk : (k : Int) = δ % (W : Int)) (h1 : -(W : Int) ≤ 2 * δ) (h2 : 2 * δ < W) :
    signed W k = δ := by
  unfold signed
  rcases Int.lt_or_le δ 0 with h | h
  · have : δ % (W : Int) = δ + W := by
      rw [← Int.add_emod_right δ W]
      exact Int.emod_eq_of_lt (by omega) (by omega)
    rw [this] at hk
    rw [if_neg (by omega)]
    omega
  · have : δ % (W : Int) = δ := Int.emod_eq_of_lt h (by omega)
    rw [this] at hk
    rw [if_pos (by omega)]
    exact hk

end Iter
end Istl
