import Verif.Lemmas.BcrsRep
import Mathlib.Data.List.Sort

/-! Helper lemmas about `compress()`. -/

namespace Istl
namespace Bcrs
variable {B : Type}

theorem read_blk {α : Type} (M : Mem α) (b : Nat) (l : List α) (h : M[b]? = some (some l)) (off k : Nat)
    (hk : off + k ≤ l.length) : M.read (some ⟨b, off⟩) k = .ok ((l.drop off).take k) := by
  unfold Mem.read
  split
  · rename_i h0; simp [h0]
  · simp [h, hk]

theorem read_one {α : Type} (M : Mem α) (b : Nat) (l : List α) (h : M[b]? = some (some l)) (q : Nat)
    (hq : q < l.length) : M.read (some ⟨b, q⟩) 1 = .ok [l[q]] := by
  rw [read_blk M b l h q 1 (by omega), List.drop_eq_getElem_cons hq]
  rfl

theorem write_one {α : Type} (M : Mem α) (b : Nat) (l : List α) (h : M[b]? = some (some l)) (q : Nat) (x : α)
    (hq : q < l.length) : M.write (some ⟨b, q⟩) [x] = .ok (M.set b (some (l.set q x))) := by
  unfold Mem.write
  simp only [List.cons_ne_nil, if_false, h, List.length_singleton, if_pos (show q + 1 ≤ l.length by omega)]
  congr 3
  rw [List.set_eq_take_append_cons_drop, if_pos hq]
  simp

/-- What `compress()` starts from: the two blocks. -/
structure Base (s0 : St B) (jb ab : Nat) (J0 : List Nat) (A0 : List B) : Prop where
  jarr : s0.o.jarr = some jb
  a : s0.o.a = some ab
  hJ : s0.h.js[jb]? = some (some J0)
  hA : s0.h.as[ab]? = some (some A0)
  len : A0.length = J0.length
  n0 : s0.o.n ≠ 0

/-- State during compression: `out` has been written to the front of both arrays. -/
def mk (s0 : St B) (jb ab : Nat) (J0 : List Nat) (A0 : List B) (out : List (Nat × B)) (ws : List Win) : St B :=
  { h := { s0.h with
      js := s0.h.js.set jb (some (out.map Prod.fst ++ J0.drop out.length))
      as := s0.h.as.set ab (some (out.map Prod.snd ++ A0.drop out.length)) }
    o := { s0.o with rows := some ws } }

section
variable {s0 : St B} {jb ab : Nat} {J0 : List Nat} {A0 : List B}

theorem mk_js (H : Base s0 jb ab J0 A0) (out : List (Nat × B)) (ws : List Win) :
    (mk s0 jb ab J0 A0 out ws).h.js[jb]? = some (some (out.map Prod.fst ++ J0.drop out.length)) := by
  simp only [mk]
  rw [List.getElem?_set_self]
  by_contra hc
  have := H.hJ
  rw [List.getElem?_eq_none (by omega)] at this
  cases this

theorem mk_as (H : Base s0 jb ab J0 A0) (out : List (Nat × B)) (ws : List Win) :
    (mk s0 jb ab J0 A0 out ws).h.as[ab]? = some (some (out.map Prod.snd ++ A0.drop out.length)) := by
  simp only [mk]
  rw [List.getElem?_set_self]
  by_contra hc
  have := H.hA
  rw [List.getElem?_eq_none (by omega)] at this
  cases this

theorem set_front {α : Type} (xs : List α) (L : List α) (x : α) (h : xs.length < L.length) :
    (xs ++ L.drop xs.length).set xs.length x = (xs ++ [x]) ++ L.drop (xs.length + 1) := by
  rw [List.set_append_right _ _ (le_refl _), List.drop_eq_getElem_cons h, Nat.sub_self, List.set_cons_zero,
    List.append_assoc]
  rfl

theorem put_ok (H : Base s0 jb ab J0 A0) (out : List (Nat × B)) (ws : List Win) (begin_ col : Nat) (v : B)
    (ov : List ((Nat × Nat) × B)) (h1 : out.length ≤ begin_) (h2 : begin_ < J0.length) :
    cmpPut begin_ col v ⟨out.length, out.length, ov⟩ (mk s0 jb ab J0 A0 out ws) =
      .ok ⟨(out ++ [(col, v)]).length, (out ++ [(col, v)]).length, ov⟩ (mk s0 jb ab J0 A0 (out ++ [(col, v)]) ws) := by
  unfold cmpPut
  rw [if_neg (by simp only; omega), Cmd.bind_ok (Cmd.get_apply _)]
  have ej : (mk s0 jb ab J0 A0 out ws).o.jarr = some jb := H.jarr
  have ea : (mk s0 jb ab J0 A0 out ws).o.a = some ab := H.a
  have hl := H.len
  rw [ej, ea]
  simp only [Option.map_some]
  rw [write_one _ _ _ (mk_js H out ws) _ _ (by simp; omega), Cmd.bind_ok (Cmd.lift_ok _ _),
    write_one _ _ _ (mk_as H out ws) _ _ (by simp; omega), Cmd.bind_ok (Cmd.lift_ok _ _),
    Cmd.bind_ok (Cmd.modify_apply _ _)]
  have e1 := set_front (out.map Prod.fst) J0 col (by simp; omega)
  have e2 := set_front (out.map Prod.snd) A0 v (by simp; omega)
  simp only [List.length_map] at e1 e2
  rw [e1, e2]
  simp [mk, List.set_set]

theorem put_throw (begin_ col : Nat) (v : B) (c : Cmp B) (s : St B) (h : begin_ < c.jit) :
    cmpPut begin_ col v c s = .throw .compressionBufferExhausted s := by
  unfold cmpPut
  rw [if_pos h]; rfl

theorem move_throw (begin_ p : Nat) (c : Cmp B) (s : St B) (h : begin_ < c.jit) :
    cmpMove begin_ p c s = .throw .compressionBufferExhausted s := by
  unfold cmpMove
  rw [if_pos h]; rfl

theorem mk_get_j (out : List (Nat × B)) (p : Nat) (h1 : out.length ≤ p) (h2 : p < J0.length) :
    (out.map Prod.fst ++ J0.drop out.length)[p]'(by simp; omega) = J0[p] := by
  rw [List.getElem_append_right (by simpa using h1)]
  simp only [List.length_map, List.getElem_drop]
  congr 1
  omega

theorem mk_get_a (out : List (Nat × B)) (p : Nat) (h1 : out.length ≤ p) (h2 : p < A0.length) :
    (out.map Prod.snd ++ A0.drop out.length)[p]'(by simp; omega) = A0[p] := by
  rw [List.getElem_append_right (by simpa using h1)]
  simp only [List.length_map, List.getElem_drop]
  congr 1
  omega

theorem move_ok (H : Base s0 jb ab J0 A0) (out : List (Nat × B)) (ws : List Win) (begin_ p : Nat)
    (ov : List ((Nat × Nat) × B)) (h1 : out.length ≤ begin_) (h2 : begin_ ≤ p) (h3 : p < J0.length) (h4 : p < A0.length) :
    cmpMove begin_ p ⟨out.length, out.length, ov⟩ (mk s0 jb ab J0 A0 out ws) =
      .ok ⟨(out ++ [(J0[p], A0[p])]).length, (out ++ [(J0[p], A0[p])]).length, ov⟩
        (mk s0 jb ab J0 A0 (out ++ [(J0[p], A0[p])]) ws) := by
  unfold cmpMove
  rw [if_neg (by simp only; omega), Cmd.bind_ok (Cmd.get_apply _)]
  have ej : (mk s0 jb ab J0 A0 out ws).o.jarr = some jb := H.jarr
  have ea : (mk s0 jb ab J0 A0 out ws).o.a = some ab := H.a
  have hl := H.len
  rw [ej, ea]
  simp only [Option.map_some]
  rw [read_one _ _ _ (mk_js H out ws) _ (by simp; omega), Cmd.bind_ok (Cmd.lift_ok _ _), mk_get_j out p (by omega) h3,
    write_one _ _ _ (mk_js H out ws) _ _ (by simp; omega), Cmd.bind_ok (Cmd.lift_ok _ _),
    read_one _ _ _ (mk_as H out ws) _ (by simp; omega), Cmd.bind_ok (Cmd.lift_ok _ _), mk_get_a out p (by omega) h4,
    write_one _ _ _ (mk_as H out ws) _ _ (by simp; omega), Cmd.bind_ok (Cmd.lift_ok _ _),
    Cmd.bind_ok (Cmd.modify_apply _ _)]
  have e1 := set_front (out.map Prod.fst) J0 J0[p] (by simp; omega)
  have e2 := set_front (out.map Prod.snd) A0 A0[p] (by simp; omega)
  simp only [List.length_map] at e1 e2
  rw [e1, e2]
  simp [mk, List.set_set]

/-- the window of row `i` grows by `k` -/
def bump (ws : List Win) (i k : Nat) : List Win := ws.modify i fun w => { w with sz := w.sz + k }

theorem bump_zero (ws : List Win) (i : Nat) : bump ws i 0 = ws := by
  unfold bump
  exact List.modify_id i ws

theorem bump_bump (ws : List Win) (i k l : Nat) : bump (bump ws i k) i l = bump ws i (k + l) := by
  unfold bump
  rw [List.modify_modify_eq]
  congr 1
  funext w
  simp [Nat.add_assoc]

@[simp] theorem bump_length (ws : List Win) (i k : Nat) : (bump ws i k).length = ws.length := by simp [bump]

theorem bumpRow_ok (H : Base s0 jb ab J0 A0) (out : List (Nat × B)) (ws : List Win) (i : Nat) (hi : i < ws.length) :
    bumpRow i (mk s0 jb ab J0 A0 out ws) = .ok () (mk s0 jb ab J0 A0 out (bump ws i 1)) := by
  unfold bumpRow
  have e1 : row i (mk s0 jb ab J0 A0 out ws) = .ok ws[i] (mk s0 jb ab J0 A0 out ws) := by
    simp [row, mk, List.getElem?_eq_getElem hi]
  rw [Cmd.bind_ok e1]
  simp only [setRow, mk, hi, if_true]
  congr 3
  unfold bump
  congr 1
  apply List.ext_getElem (by simp)
  intro k h1 h2
  rw [List.getElem_set, List.getElem_modify]
  split
  · rename_i hk; subst hk; rfl
  · rfl

/-- columns and values of overflow entries -/
def ovItems (l : List ((Nat × Nat) × B)) : List (Nat × B) := l.map fun e => (e.1.2, e.2)

theorem takes_some (H : Base s0 jb ab J0 A0) (out : List (Nat × B)) (ws : List Win) (i p : Nat) (k : Nat × Nat)
    (h3 : p < J0.length) (h1 : out.length ≤ J0.length) :
    ∃ t, cmpTakes (mk s0 jb ab J0 A0 out ws) i (some p) k = .ok t ∧
      (out.length ≤ p → t = keyLt k (i, J0[p])) := by
  unfold cmpTakes
  have ej : (mk s0 jb ab J0 A0 out ws).o.jarr = some jb := H.jarr
  rw [ej]
  simp only [Option.map_some]
  rw [read_one _ _ _ (mk_js H out ws) _ (by simp; omega)]
  refine ⟨_, rfl, fun h => ?_⟩
  rw [mk_get_j out p h h3]
  rfl

/-- one pointer of the row: overflow entries before it, then itself -/
def cmpStep (i begin_ p : Nat) (l : List ((Nat × Nat) × B)) (c : Cmp B) : BC B (Cmp B) := do
  let c ← cmpOv i begin_ (some p) l c
  cmpMove begin_ p c

theorem step_late (H : Base s0 jb ab J0 A0) (out : List (Nat × B)) (ws : List Win) (i begin_ p : Nat)
    (l l' : List ((Nat × Nat) × B)) (h1 : begin_ < out.length) (h0 : out.length ≤ J0.length) (h3 : p < J0.length) :
    cmpStep i begin_ p l ⟨out.length, out.length, l'⟩ (mk s0 jb ab J0 A0 out ws) =
      .throw .compressionBufferExhausted (mk s0 jb ab J0 A0 out ws) := by
  unfold cmpStep
  cases l with
  | nil =>
    rw [Cmd.bind_ok (a := ⟨out.length, out.length, []⟩) (s' := mk s0 jb ab J0 A0 out ws) (by simp [cmpOv])]
    exact move_throw _ _ _ _ h1
  | cons e es =>
    obtain ⟨t, ht, -⟩ := takes_some H out ws i p e.1 h3 h0
    cases t with
    | true =>
      rw [Cmd.bind_throw]
      unfold cmpOv
      rw [Cmd.bind_ok (Cmd.get_apply _), ht, Cmd.bind_ok (Cmd.lift_ok _ _)]
      simp only [if_true]
      rw [Cmd.bind_throw (put_throw _ _ _ _ _ h1)]
    | false =>
      rw [Cmd.bind_ok (a := ⟨out.length, out.length, e :: es⟩) (s' := mk s0 jb ab J0 A0 out ws)]
      · exact move_throw _ _ _ _ h1
      · unfold cmpOv
        rw [Cmd.bind_ok (Cmd.get_apply _), ht, Cmd.bind_ok (Cmd.lift_ok _ _)]
        simp

theorem step_spec (H : Base s0 jb ab J0 A0) (i begin_ p : Nat) (h2 : begin_ ≤ p) (h3 : p < J0.length)
    (h4 : p < A0.length) (l : List ((Nat × Nat) × B)) :
    ∀ (out : List (Nat × B)) (ws : List Win) (l' : List ((Nat × Nat) × B)), i < ws.length → out.length ≤ begin_ →
    (out.length + (l.takeWhile fun e => keyLt e.1 (i, J0[p])).length ≤ begin_ →
      cmpStep i begin_ p l ⟨out.length, out.length, l'⟩ (mk s0 jb ab J0 A0 out ws) =
        let out' := out ++ ovItems (l.takeWhile fun e => keyLt e.1 (i, J0[p])) ++ [(J0[p], A0[p])]
        .ok ⟨out'.length, out'.length, l.dropWhile fun e => keyLt e.1 (i, J0[p])⟩
          (mk s0 jb ab J0 A0 out' (bump ws i (l.takeWhile fun e => keyLt e.1 (i, J0[p])).length))) ∧
    (begin_ < out.length + (l.takeWhile fun e => keyLt e.1 (i, J0[p])).length →
      ∃ s', cmpStep i begin_ p l ⟨out.length, out.length, l'⟩ (mk s0 jb ab J0 A0 out ws) =
        .throw .compressionBufferExhausted s') := by
  induction l with
  | nil =>
    intro out ws l' hi h1
    refine ⟨fun _ => ?_, fun h => ?_⟩
    · unfold cmpStep
      rw [Cmd.bind_ok (a := ⟨out.length, out.length, []⟩) (s' := mk s0 jb ab J0 A0 out ws) (by simp [cmpOv]),
        move_ok H out ws begin_ p [] h1 h2 h3 h4]
      simp [ovItems, bump_zero]
    · simp at h; omega
  | cons e es ih =>
    intro out ws l' hi h1
    have hlen := H.len
    obtain ⟨t, ht, htv⟩ := takes_some H out ws i p e.1 h3 (by omega)
    have htv := htv (by omega)
    cases hk : keyLt e.1 (i, J0[p]) with
    | false =>
      have ht2 : t = false := by rw [htv, hk]
      subst ht2
      rw [List.takeWhile_cons_of_neg (by simp [hk]), List.dropWhile_cons_of_neg (by simp [hk])]
      refine ⟨fun _ => ?_, fun h => ?_⟩
      · unfold cmpStep
        rw [Cmd.bind_ok (a := ⟨out.length, out.length, e :: es⟩) (s' := mk s0 jb ab J0 A0 out ws),
          move_ok H out ws begin_ p _ h1 h2 h3 h4]
        · simp [ovItems, bump_zero]
        · unfold cmpOv
          rw [Cmd.bind_ok (Cmd.get_apply _), ht, Cmd.bind_ok (Cmd.lift_ok _ _)]
          simp
      · simp at h; omega
    | true =>
      have ht2 : t = true := by rw [htv, hk]
      subst ht2
      rw [List.takeWhile_cons_of_pos (by simp [hk]), List.dropWhile_cons_of_pos (by simp [hk])]
      have hrec : cmpStep i begin_ p (e :: es) ⟨out.length, out.length, l'⟩ (mk s0 jb ab J0 A0 out ws) =
          cmpStep i begin_ p es ⟨(out ++ [(e.1.2, e.2)]).length, (out ++ [(e.1.2, e.2)]).length, l'⟩
            (mk s0 jb ab J0 A0 (out ++ [(e.1.2, e.2)]) (bump ws i 1)) := by
        unfold cmpStep
        conv_lhs => unfold cmpOv
        simp only [Cmd.bind_def (f := fun c => cmpMove begin_ p c)]
        rw [Cmd.bind_ok (Cmd.get_apply _), ht, Cmd.bind_ok (Cmd.lift_ok _ _)]
        simp only [if_true]
        rw [Cmd.bind_ok (put_ok H out ws begin_ _ _ _ h1 (by omega)), Cmd.bind_ok (bumpRow_ok H _ ws i hi)]
      rw [hrec]
      by_cases h5 : (out ++ [(e.1.2, e.2)]).length ≤ begin_
      · obtain ⟨a, b⟩ := ih (out ++ [(e.1.2, e.2)]) (bump ws i 1) l' (by simpa using hi) h5
        refine ⟨fun h => ?_, fun h => ?_⟩
        · rw [a (by simp at h ⊢; omega)]
          simp [ovItems, bump_bump, Nat.add_comm]
        · exact b (by simp at h ⊢; omega)
      · refine ⟨fun h => by simp at h h5; omega, fun _ => ⟨_, step_late H _ _ i begin_ p es l' ?_ ?_ h3⟩⟩
        · omega
        · simp; omega

/-- The final overflow loop of a row. -/
theorem ovNone_spec (H : Base s0 jb ab J0 A0) (i begin_ : Nat) (hb : begin_ < J0.length) (l : List ((Nat × Nat) × B)) :
    ∀ (out : List (Nat × B)) (ws : List Win) (l' : List ((Nat × Nat) × B)), i < ws.length → out.length ≤ begin_ + 1 →
    (out.length + (l.takeWhile fun e => e.1.1 == i).length ≤ begin_ + 1 →
      cmpOv i begin_ none l ⟨out.length, out.length, l'⟩ (mk s0 jb ab J0 A0 out ws) =
        let out' := out ++ ovItems (l.takeWhile fun e => e.1.1 == i)
        .ok ⟨out'.length, out'.length, l.dropWhile fun e => e.1.1 == i⟩
          (mk s0 jb ab J0 A0 out' (bump ws i (l.takeWhile fun e => e.1.1 == i).length))) ∧
    (begin_ + 1 < out.length + (l.takeWhile fun e => e.1.1 == i).length →
      ∃ s', cmpOv i begin_ none l ⟨out.length, out.length, l'⟩ (mk s0 jb ab J0 A0 out ws) =
        .throw .compressionBufferExhausted s') := by
  induction l with
  | nil =>
    intro out ws l' hi h1
    refine ⟨fun _ => ?_, fun h => ?_⟩
    · simp [cmpOv, ovItems, bump_zero]
    · simp at h; omega
  | cons e es ih =>
    intro out ws l' hi h1
    by_cases hk : e.1.1 = i
    · rw [List.takeWhile_cons_of_pos (by simp [hk]), List.dropWhile_cons_of_pos (by simp [hk])]
      by_cases h5 : out.length ≤ begin_
      · have hrec : cmpOv i begin_ none (e :: es) ⟨out.length, out.length, l'⟩ (mk s0 jb ab J0 A0 out ws) =
            cmpOv i begin_ none es ⟨(out ++ [(e.1.2, e.2)]).length, (out ++ [(e.1.2, e.2)]).length, l'⟩
              (mk s0 jb ab J0 A0 (out ++ [(e.1.2, e.2)]) (bump ws i 1)) := by
          conv_lhs => unfold cmpOv
          rw [Cmd.bind_ok (Cmd.get_apply _)]
          simp only [cmpTakes, hk, BEq.rfl]
          rw [Cmd.bind_ok (Cmd.lift_ok _ _)]
          simp only [if_true]
          rw [Cmd.bind_ok (put_ok H out ws begin_ _ _ _ h5 hb), Cmd.bind_ok (bumpRow_ok H _ ws i hi)]
        rw [hrec]
        obtain ⟨a, b⟩ := ih (out ++ [(e.1.2, e.2)]) (bump ws i 1) l' (by simpa using hi) (by simp; omega)
        refine ⟨fun h => ?_, fun h => ?_⟩
        · rw [a (by simp at h ⊢; omega)]
          simp [ovItems, bump_bump, Nat.add_comm]
        · exact b (by simp at h ⊢; omega)
      · refine ⟨fun h => by simp at h; omega, fun _ => ⟨mk s0 jb ab J0 A0 out ws, ?_⟩⟩
        unfold cmpOv
        rw [Cmd.bind_ok (Cmd.get_apply _)]
        simp only [cmpTakes, hk, BEq.rfl]
        rw [Cmd.bind_ok (Cmd.lift_ok _ _)]
        simp only [if_true]
        rw [Cmd.bind_throw (put_throw _ _ _ _ _ (by simp only; omega))]
    · rw [List.takeWhile_cons_of_neg (by simp [hk]), List.dropWhile_cons_of_neg (by simp [hk])]
      refine ⟨fun _ => ?_, fun h => by simp at h; omega⟩
      unfold cmpOv
      rw [Cmd.bind_ok (Cmd.get_apply _)]
      simp only [cmpTakes]
      rw [Cmd.bind_ok (Cmd.lift_ok _ _)]
      simp [hk, ovItems, bump_zero]

/-- entries in the order in which one row is written by the pointer loop, and the overflow entries left -/
def mrg (i : Nat) : List (Nat × B) → List ((Nat × Nat) × B) → List (Nat × B) × List ((Nat × Nat) × B)
  | [], ov => ([], ov)
  | it :: its, ov =>
    let r := mrg i its (ov.dropWhile fun e => keyLt e.1 (i, it.1))
    (ovItems (ov.takeWhile fun e => keyLt e.1 (i, it.1)) ++ it :: r.1, r.2)

theorem mrg_length (i : Nat) (its : List (Nat × B)) (ov : List ((Nat × Nat) × B)) : its.length ≤ (mrg i its ov).1.length := by
  induction its generalizing ov with
  | nil => simp [mrg]
  | cons it its ih =>
    simp only [mrg, List.length_cons, List.length_append]
    have := ih (ov.dropWhile fun e => keyLt e.1 (i, it.1))
    omega

theorem perm_spec (H : Base s0 jb ab J0 A0) (i begin_ : Nat) (ps : List Nat) (items : List (Nat × B)) :
    ∀ (out : List (Nat × B)) (ws : List Win) (ov : List ((Nat × Nat) × B)), i < ws.length → out.length ≤ begin_ + 1 →
    items.length = ps.length →
    (∀ k (h : k < ps.length) (h' : k < items.length), begin_ ≤ ps[k] ∧ J0[ps[k]]? = some items[k].1 ∧
      A0[ps[k]]? = some items[k].2) →
    (out.length + (mrg i items ov).1.length ≤ begin_ + 1 →
      cmpPerm i begin_ ps ⟨out.length, out.length, ov⟩ (mk s0 jb ab J0 A0 out ws) =
        let out' := out ++ (mrg i items ov).1
        .ok ⟨out'.length, out'.length, (mrg i items ov).2⟩
          (mk s0 jb ab J0 A0 out' (bump ws i ((mrg i items ov).1.length - items.length)))) ∧
    (begin_ + 1 < out.length + (mrg i items ov).1.length →
      ∃ s', cmpPerm i begin_ ps ⟨out.length, out.length, ov⟩ (mk s0 jb ab J0 A0 out ws) =
        .throw .compressionBufferExhausted s') := by
  induction ps generalizing items with
  | nil =>
    intro out ws ov hi h1 hl hk
    have : items = [] := List.length_eq_zero_iff.mp hl
    subst this
    refine ⟨fun _ => ?_, fun h => ?_⟩
    · simp [cmpPerm, mrg, bump_zero]
    · simp [mrg] at h; omega
  | cons p ps ih =>
    intro out ws ov hi h1 hl hk
    cases items with
    | nil => simp at hl
    | cons it its =>
      have hlen := H.len
      obtain ⟨k1, k2, k3⟩ := hk 0 (by simp) (by simp)
      simp only [List.getElem_cons_zero] at k1 k2 k3
      have hp : p < J0.length := by
        by_contra hc; rw [List.getElem?_eq_none (by omega)] at k2; cases k2
      have hp' : p < A0.length := by omega
      have hit : it = (J0[p], A0[p]) := by
        rw [List.getElem?_eq_getElem hp] at k2
        rw [List.getElem?_eq_getElem hp'] at k3
        simp at k2 k3
        rw [k2, k3]
      have hrec : cmpPerm i begin_ (p :: ps) ⟨out.length, out.length, ov⟩ (mk s0 jb ab J0 A0 out ws) =
          (do let c ← cmpStep i begin_ p ov ⟨out.length, out.length, ov⟩; cmpPerm i begin_ ps c : BC B (Cmp B))
            (mk s0 jb ab J0 A0 out ws) := by
        conv_lhs => unfold cmpPerm
        unfold cmpStep
        simp only [Cmd.bind_def]
        cases cmpOv i begin_ (some p) ov ⟨out.length, out.length, ov⟩ (mk s0 jb ab J0 A0 out ws) <;> rfl
      rw [hrec]
      by_cases h5 : out.length ≤ begin_
      · obtain ⟨a, b⟩ := step_spec H i begin_ p k1 hp hp' ov out ws ov hi h5
        have e1 : it.1 = J0[p] := by rw [hit]
        set T := ov.takeWhile fun e => keyLt e.1 (i, J0[p]) with hT
        have hml : (mrg i (it :: its) ov).1.length = T.length + 1 +
            (mrg i its (ov.dropWhile fun e => keyLt e.1 (i, J0[p]))).1.length := by
          simp only [mrg, e1, List.length_append, List.length_cons, ovItems, List.length_map, hT]
          omega
        have hge := mrg_length i its (ov.dropWhile fun e => keyLt e.1 (i, J0[p]))
        by_cases h6 : out.length + T.length ≤ begin_
        · rw [Cmd.bind_ok (a h6)]
          have := ih its (out ++ ovItems T ++ [(J0[p], A0[p])]) (bump ws i T.length)
            (ov.dropWhile fun e => keyLt e.1 (i, J0[p])) (by simpa using hi) (by simp [ovItems]; omega)
            (by simpa using hl) (fun k h h' => hk (k + 1) (Nat.succ_lt_succ h) (Nat.succ_lt_succ h'))
          obtain ⟨c, d⟩ := this
          refine ⟨fun h => ?_, fun h => ?_⟩
          · rw [c (by simp [ovItems]; omega)]
            have eo : out ++ ovItems T ++ [(J0[p], A0[p])] ++ (mrg i its (ov.dropWhile fun e => keyLt e.1 (i, J0[p]))).1 =
                out ++ (mrg i (it :: its) ov).1 := by
              simp [mrg, hit, hT]
            have eb : T.length + ((mrg i its (ov.dropWhile fun e => keyLt e.1 (i, J0[p]))).1.length - its.length) =
                (mrg i (it :: its) ov).1.length - (it :: its).length := by
              rw [hml, List.length_cons]; omega
            simp only [bump_bump]
            rw [eo, eb]
            simp [mrg, e1]
          · exact d (by simp [ovItems]; omega)
        · refine ⟨fun h => by omega, fun _ => ?_⟩
          obtain ⟨s', hs'⟩ := b (by omega)
          exact ⟨s', Cmd.bind_throw hs'⟩
      · refine ⟨fun h => ?_, fun _ => ?_⟩
        · have := mrg_length i (it :: its) ov
          simp at this
          omega
        · exact ⟨_, Cmd.bind_throw (step_late H out ws i begin_ p ov ov (by omega) (by omega) hp)⟩

/-! ### One row -/

/-- Merge of the sorted buffer entries of a row with its overflow entries. -/
def mergeCols : List (Nat × B) → List (Nat × B) → List (Nat × B)
  | [], o => o
  | it :: its, o => o.takeWhile (fun e => e.1 < it.1) ++ it :: mergeCols its (o.dropWhile fun e => e.1 < it.1)

/-- overflow entries of row `i` as stored in the map -/
def ovOf (ovr : Nat → List (Nat × B)) (i : Nat) : List ((Nat × Nat) × B) := (ovr i).map fun e => ((i, e.1), e.2)

theorem takeWhile_app {α : Type} (p : α → Bool) (l r : List α) (h : ∀ e ∈ r, p e = false) :
    (l ++ r).takeWhile p = l.takeWhile p ∧ (l ++ r).dropWhile p = l.dropWhile p ++ r := by
  induction l with
  | nil =>
    cases r with
    | nil => simp
    | cons e r =>
      have := h e (by simp)
      simp [this]
  | cons a l ih =>
    by_cases ha : p a
    · simp [ha, ih.1, ih.2]
    · simp [ha]

theorem takeWhile_mapc {α β : Type} (p : β → Bool) (f : α → β) (l : List α) :
    (l.map f).takeWhile p = (l.takeWhile (p ∘ f)).map f ∧ (l.map f).dropWhile p = (l.dropWhile (p ∘ f)).map f := by
  rw [List.takeWhile_map, List.dropWhile_map]
  exact ⟨rfl, rfl⟩

theorem keyLt_same (i a x : Nat) : keyLt (i, a) (i, x) = decide (a < x) := by
  simp [keyLt]

theorem keyLt_big (k : Nat × Nat) (i x : Nat) (h : i < k.1) : keyLt k (i, x) = false := by
  simp [keyLt]; omega

theorem mrg_row (i : Nat) (items : List (Nat × B)) : ∀ (o : List (Nat × B)) (rest : List ((Nat × Nat) × B)),
    (∀ e ∈ rest, i < e.1.1) →
    (mrg i items (o.map (fun e => ((i, e.1), e.2)) ++ rest)).1 ++
      ovItems ((mrg i items (o.map (fun e => ((i, e.1), e.2)) ++ rest)).2.takeWhile fun e => e.1.1 == i) = mergeCols items o ∧
    ((mrg i items (o.map (fun e => ((i, e.1), e.2)) ++ rest)).2.dropWhile fun e => e.1.1 == i) = rest := by
  induction items with
  | nil =>
    intro o rest hr
    have hz : ∀ e ∈ rest, (fun e : (Nat × Nat) × B => e.1.1 == i) e = false := by
      intro e he
      have := hr e he
      simp; omega
    obtain ⟨e1, e2⟩ := takeWhile_app (fun e : (Nat × Nat) × B => e.1.1 == i) (o.map (fun e => ((i, e.1), e.2))) rest hz
    have e3 : (o.map (fun e => ((i, e.1), e.2))).takeWhile (fun e : (Nat × Nat) × B => e.1.1 == i) =
        o.map (fun e => ((i, e.1), e.2)) := by
      rw [List.takeWhile_eq_self_iff]
      intro x hx
      obtain ⟨y, -, rfl⟩ := List.mem_map.mp hx
      simp
    have e4 : (o.map (fun e => ((i, e.1), e.2))).dropWhile (fun e : (Nat × Nat) × B => e.1.1 == i) = [] := by
      rw [List.dropWhile_eq_nil_iff]
      intro x hx
      obtain ⟨y, -, rfl⟩ := List.mem_map.mp hx
      simp
    simp only [mrg, mergeCols, List.nil_append]
    rw [e1, e2, e3, e4]
    refine ⟨?_, rfl⟩
    unfold ovItems
    rw [List.map_map]
    exact List.map_id' _
  | cons it its ih =>
    intro o rest hr
    have hz : ∀ e ∈ rest, (fun e : (Nat × Nat) × B => keyLt e.1 (i, it.1)) e = false := by
      intro e he
      exact keyLt_big _ _ _ (hr e he)
    obtain ⟨e1, e2⟩ := takeWhile_app (fun e : (Nat × Nat) × B => keyLt e.1 (i, it.1)) (o.map (fun e => ((i, e.1), e.2))) rest hz
    obtain ⟨e3, e4⟩ := takeWhile_mapc (fun e : (Nat × Nat) × B => keyLt e.1 (i, it.1)) (fun e : Nat × B => ((i, e.1), e.2)) o
    have e5 : ((fun e : (Nat × Nat) × B => keyLt e.1 (i, it.1)) ∘ fun e : Nat × B => ((i, e.1), e.2)) = fun e => decide (e.1 < it.1) := by
      funext e
      simp [keyLt_same]
    rw [e5] at e3 e4
    simp only [mrg, mergeCols]
    rw [e1, e2, e3, e4]
    obtain ⟨a, b⟩ := ih (o.dropWhile fun e => e.1 < it.1) rest hr
    refine ⟨?_, b⟩
    rw [List.append_assoc, List.cons_append, a]
    congr 1
    unfold ovItems
    rw [List.map_map]
    exact List.map_id' _

/-- the sorted pointers of a row -/
def permOf (beg : Nat) (xs : List Nat) : List Nat :=
  ((xs.zipIdx beg).mergeSort (fun a b => decide (a.1 ≤ b.1))).map Prod.snd

/-- the entries they point to -/
def itemsOf (beg : Nat) (J0 : List Nat) (A0 : List B) (d : B) (xs : List Nat) : List (Nat × B) :=
  (permOf beg xs).map fun p => (J0.getD p 0, A0.getD p d)

theorem itemsOf_perm (beg : Nat) (J0 : List Nat) (A0 : List B) (d : B) (buf : List (Nat × B))
    (hJ : ∀ q (h : q < buf.length), J0[beg + q]? = some buf[q].1) (hA : ∀ q (h : q < buf.length), A0[beg + q]? = some buf[q].2) :
    (itemsOf beg J0 A0 d (buf.map Prod.fst)).Perm buf := by
  unfold itemsOf permOf
  have h1 : (((buf.map Prod.fst).zipIdx beg).mergeSort (fun a b => decide (a.1 ≤ b.1))).Perm ((buf.map Prod.fst).zipIdx beg) :=
    List.mergeSort_perm _ _
  have h2 := (h1.map Prod.snd).map fun p => (J0.getD p 0, A0.getD p d)
  refine h2.trans (List.Perm.of_eq ?_)
  rw [List.map_map]
  apply List.ext_getElem (by simp)
  intro q a b
  have := hJ q b
  have := hA q b
  simp only [List.getElem_map, Function.comp, List.getElem_zipIdx, List.getD_eq_getElem?_getD]
  simp [*]

theorem itemsOf_sorted (beg : Nat) (J0 : List Nat) (A0 : List B) (d : B) (buf : List (Nat × B))
    (hJ : ∀ q (h : q < buf.length), J0[beg + q]? = some buf[q].1) :
    (itemsOf beg J0 A0 d (buf.map Prod.fst)).Pairwise (fun a b => a.1 ≤ b.1) := by
  unfold itemsOf permOf
  rw [List.map_map, List.pairwise_map]
  have hs := List.pairwise_mergeSort (le := fun a b : Nat × Nat => decide (a.1 ≤ b.1))
    (by intro a b c; simp; omega) (by intro a b; simp; omega) ((buf.map Prod.fst).zipIdx beg)
  refine hs.imp_of_mem ?_
  intro a b ha hb hab
  have key : ∀ c ∈ ((buf.map Prod.fst).zipIdx beg), J0.getD c.2 0 = c.1 := by
    intro c hc
    obtain ⟨q, hq, rfl⟩ := List.getElem_of_mem hc
    simp only [List.length_zipIdx, List.length_map] at hq
    simp only [List.getElem_zipIdx, List.getElem_map, List.getD_eq_getElem?_getD]
    simp [hJ q hq]
  have k1 := key a (List.mem_mergeSort.mp ha)
  have k2 := key b (List.mem_mergeSort.mp hb)
  simp only [Function.comp, k1, k2]
  simpa using hab

/-- What row `i` becomes. -/
def rowOut (os avg : Nat) (J0 : List Nat) (A0 : List B) (d : B) (bufs ovr : Nat → List (Nat × B)) (i : Nat) : List (Nat × B) :=
  mergeCols (itemsOf (os + i * avg) J0 A0 d ((bufs i).map Prod.fst)) (ovr i)

theorem row_spec (H : Base s0 jb ab J0 A0) (d : B) (os avg i : Nat) (bufs ovr : Nat → List (Nat × B)) (out : List (Nat × B)) (ws : List Win)
    (rest : List ((Nat × Nat) × B)) (hi : i < ws.length)
    (hw : ws[i] = ⟨(bufs i).length, some ⟨ab, os + i * avg⟩, some ⟨jb, os + i * avg⟩⟩)
    (hJ : ∀ q (h : q < (bufs i).length), J0[os + i * avg + q]? = some ((bufs i)[q]).1)
    (hA : ∀ q (h : q < (bufs i).length), A0[os + i * avg + q]? = some ((bufs i)[q]).2)
    (hbeg : os + i * avg < J0.length) (h1 : out.length ≤ os + i * avg) (hrest : ∀ e ∈ rest, i < e.1.1) :
    (out.length + (rowOut os avg J0 A0 d bufs ovr i).length ≤ os + i * avg + 1 →
      cmpRow i ⟨out.length, out.length, ovOf ovr i ++ rest⟩ (mk s0 jb ab J0 A0 out ws) =
        let out' := out ++ rowOut os avg J0 A0 d bufs ovr i
        .ok ⟨out'.length, out'.length, rest⟩ (mk s0 jb ab J0 A0 out'
          (ws.set i ⟨(rowOut os avg J0 A0 d bufs ovr i).length, some ⟨ab, out.length⟩, some ⟨jb, out.length⟩⟩))) ∧
    (os + i * avg + 1 < out.length + (rowOut os avg J0 A0 d bufs ovr i).length →
      ∃ s', cmpRow i ⟨out.length, out.length, ovOf ovr i ++ rest⟩ (mk s0 jb ab J0 A0 out ws) =
        .throw .compressionBufferExhausted s') := by
  have hlen := H.len
  set beg := os + i * avg with hbegd
  have hk : beg + (bufs i).length ≤ J0.length := by
    by_cases h0 : (bufs i).length = 0
    · omega
    · have := hJ ((bufs i).length - 1) (by omega)
      by_contra hc
      rw [List.getElem?_eq_none (by omega)] at this
      cases this
  set xs := (bufs i).map Prod.fst with hxs
  have hread : (mk s0 jb ab J0 A0 out ws).h.js.read (some ⟨jb, beg⟩) (bufs i).length = .ok xs := by
    rw [read_blk _ _ _ (mk_js H out ws) _ _ (by simp; omega)]
    congr 1
    apply List.ext_getElem
    · simp [xs]; omega
    · intro q a b
      simp only [List.length_map, hxs] at b
      simp only [List.getElem_take, List.getElem_drop]
      rw [mk_get_j out (beg + q) (by omega) (by omega)]
      have := hJ q b
      rw [List.getElem?_eq_getElem (by omega)] at this
      simp [xs]
      simpa using this
  set ws1 := ws.set i ⟨(bufs i).length, some ⟨ab, out.length⟩, some ⟨jb, out.length⟩⟩ with hws1
  set items := itemsOf beg J0 A0 d xs with hitems
  have hpl : (permOf beg xs).length = (bufs i).length := by simp [permOf, xs]
  have hil : items.length = (permOf beg xs).length := by simp [items, itemsOf]
  have hpm : ∀ p ∈ permOf beg xs, beg ≤ p ∧ p < beg + (bufs i).length := by
    intro p hp
    unfold permOf at hp
    obtain ⟨c, hc, rfl⟩ := List.mem_map.mp hp
    have hc := List.mem_mergeSort.mp hc
    obtain ⟨q, hq, rfl⟩ := List.getElem_of_mem hc
    simp only [List.length_zipIdx, List.length_map, hxs] at hq
    simp only [List.getElem_zipIdx]
    omega
  have hstart : cmpRow i ⟨out.length, out.length, ovOf ovr i ++ rest⟩ (mk s0 jb ab J0 A0 out ws) =
      (do let c ← cmpPerm i beg (permOf beg xs) ⟨out.length, out.length, ovOf ovr i ++ rest⟩
          cmpOv i beg none c.ov c : BC B (Cmp B)) (mk s0 jb ab J0 A0 out ws1) := by
    unfold cmpRow
    have e1 : row i (mk s0 jb ab J0 A0 out ws) = .ok ws[i] (mk s0 jb ab J0 A0 out ws) := by
      simp [row, mk, List.getElem?_eq_getElem hi]
    rw [Cmd.bind_ok e1, Cmd.bind_ok (Cmd.get_apply _), hw]
    simp only
    rw [hread, Cmd.bind_ok (Cmd.lift_ok _ _)]
    have e2 : (setRow i ⟨(bufs i).length, (mk s0 jb ab J0 A0 out ws).o.a.map fun b => ⟨b, out.length⟩,
        (mk s0 jb ab J0 A0 out ws).o.jarr.map fun b => ⟨b, out.length⟩⟩ : BC B Unit) (mk s0 jb ab J0 A0 out ws) =
        .ok () (mk s0 jb ab J0 A0 out ws1) := by
      have ej : (mk s0 jb ab J0 A0 out ws).o.jarr = some jb := H.jarr
      have ea : (mk s0 jb ab J0 A0 out ws).o.a = some ab := H.a
      rw [ej, ea]
      simp [setRow, mk, hi, ws1]
    rw [Cmd.bind_ok e2]
    rfl
  have hws1l : i < ws1.length := by simp [ws1, hi]
  obtain ⟨a, b⟩ := perm_spec H i beg (permOf beg xs) items out ws1 (ovOf ovr i ++ rest) hws1l (by omega) hil (by
    intro k h h'
    have := hpm _ (List.getElem_mem h)
    refine ⟨this.1, ?_, ?_⟩
    · rw [List.getElem?_eq_getElem (by omega)]
      simp only [items, itemsOf, List.getElem_map, List.getD_eq_getElem?_getD]
      rw [List.getElem?_eq_getElem (by omega)]
      simp
    · rw [List.getElem?_eq_getElem (by omega)]
      simp only [items, itemsOf, List.getElem_map, List.getD_eq_getElem?_getD]
      rw [List.getElem?_eq_getElem (by omega)]
      simp)
  obtain ⟨m1, m2⟩ := mrg_row i items (ovr i) rest hrest
  have m1' : (mrg i items (ovOf ovr i ++ rest)).1 ++
      ovItems ((mrg i items (ovOf ovr i ++ rest)).2.takeWhile fun e => e.1.1 == i) = rowOut os avg J0 A0 d bufs ovr i := m1
  have m2' : ((mrg i items (ovOf ovr i ++ rest)).2.dropWhile fun e => e.1.1 == i) = rest := m2
  have hrl : (rowOut os avg J0 A0 d bufs ovr i).length = (mrg i items (ovOf ovr i ++ rest)).1.length +
      ((mrg i items (ovOf ovr i ++ rest)).2.takeWhile fun e => e.1.1 == i).length := by
    rw [← m1', List.length_append]; simp [ovItems]
  have hge := mrg_length i items (ovOf ovr i ++ rest)
  rw [hstart]
  set M1 := (mrg i items (ovOf ovr i ++ rest)).1 with hM1
  set O1 := (mrg i items (ovOf ovr i ++ rest)).2 with hO1
  by_cases h2 : out.length + M1.length ≤ beg + 1
  · rw [Cmd.bind_ok (a h2)]
    obtain ⟨a2, b2⟩ := ovNone_spec H i beg hbeg O1 (out ++ M1) (bump ws1 i (M1.length - items.length)) O1
      (by simpa using hws1l) (by simp; omega)
    refine ⟨fun h => ?_, fun h => b2 (by simp; omega)⟩
    have := a2 (by simp; omega)
    simp only
    rw [this]
    have eo : out ++ M1 ++ ovItems (O1.takeWhile fun e => e.1.1 == i) = out ++ rowOut os avg J0 A0 d bufs ovr i := by
      rw [List.append_assoc, m1']
    simp only
    rw [eo, m2']
    congr 2
    rw [bump_bump]
    apply List.ext_getElem (by simp [ws1])
    intro k g1 g2
    simp only [bump, List.getElem_modify, ws1, List.getElem_set]
    split
    · rename_i hki
      simp only [Win.mk.injEq, and_self, and_true]
      rw [hrl]
      rw [hil, hpl] at hge
      omega
    · rfl
  · refine ⟨fun h => by omega, fun _ => ?_⟩
    obtain ⟨s', hs'⟩ := b (by omega)
    exact ⟨s', Cmd.bind_throw hs'⟩

/-! ### All rows -/

/-- the entries of the rows fit in front of the buffers -/
def fits (os avg : Nat) (len : Nat → Nat) : Nat → List Nat → Prop
  | _, [] => True
  | acc, i :: is => acc + len i ≤ os + i * avg + 1 ∧ fits os avg len (acc + len i) is

theorem rows_spec (H : Base s0 jb ab J0 A0) (d : B) (os avg n : Nat) (bufs ovr : Nat → List (Nat × B)) (hav : 0 < avg)
    (hJl : J0.length = os + n * avg)
    (hJ : ∀ i, i < n → ∀ q (h : q < (bufs i).length), J0[os + i * avg + q]? = some ((bufs i)[q]).1)
    (hA : ∀ i, i < n → ∀ q (h : q < (bufs i).length), A0[os + i * avg + q]? = some ((bufs i)[q]).2) (k : Nat) :
    ∀ (i : Nat) (out : List (Nat × B)) (ws : List Win), i + k = n → ws.length = n → out.length ≤ os + i * avg →
    (∀ r (h : r < ws.length), i ≤ r → ws[r] = ⟨(bufs r).length, some ⟨ab, os + r * avg⟩, some ⟨jb, os + r * avg⟩⟩) →
    (fits os avg (fun r => (rowOut os avg J0 A0 d bufs ovr r).length) out.length (List.range' i k) →
      ∃ ws', cmpRows (List.range' i k) ⟨out.length, out.length, (List.range' i k).flatMap (ovOf ovr)⟩ (mk s0 jb ab J0 A0 out ws) =
        (let out' := out ++ ((List.range' i k).map (rowOut os avg J0 A0 d bufs ovr)).flatten
        .ok ⟨out'.length, out'.length, []⟩ (mk s0 jb ab J0 A0 out' ws')) ∧ ws'.length = n ∧
        (∀ r (h : r < ws'.length) (h2 : r < ws.length), r < i → ws'[r] = ws[r]) ∧
        (∀ r (h : r < ws'.length), i ≤ r → ws'[r] = ⟨(rowOut os avg J0 A0 d bufs ovr r).length,
          some ⟨ab, out.length + Mem.segOff ((List.range' i k).map (rowOut os avg J0 A0 d bufs ovr)) (r - i)⟩,
          some ⟨jb, out.length + Mem.segOff ((List.range' i k).map (rowOut os avg J0 A0 d bufs ovr)) (r - i)⟩⟩)) ∧
    (¬ fits os avg (fun r => (rowOut os avg J0 A0 d bufs ovr r).length) out.length (List.range' i k) →
      ∃ s', cmpRows (List.range' i k) ⟨out.length, out.length, (List.range' i k).flatMap (ovOf ovr)⟩ (mk s0 jb ab J0 A0 out ws) =
        .throw .compressionBufferExhausted s') := by
  induction k with
  | zero =>
    intro i out ws hik hwl h1 hws
    refine ⟨fun _ => ⟨ws, ?_, hwl, fun _ _ _ _ => rfl, fun r h hr => by omega⟩, fun h => absurd trivial h⟩
    simp [cmpRows]
  | succ k ih =>
    intro i out ws hik hwl h1 hws
    have hi : i < ws.length := by omega
    have hlt : i * avg + avg ≤ n * avg := by
      have : (i + 1) * avg ≤ n * avg := Nat.mul_le_mul_right _ (by omega)
      rw [Nat.add_mul, Nat.one_mul] at this
      exact this
    rw [List.range'_succ]
    have hrest : ∀ e ∈ (List.range' (i + 1) k).flatMap (ovOf ovr), i < e.1.1 := by
      intro e he
      obtain ⟨r, hr, he⟩ := List.mem_flatMap.mp he
      obtain ⟨x, -, rfl⟩ := List.mem_map.mp he
      simp only
      have := List.mem_range'_1.mp hr
      omega
    obtain ⟨a, b⟩ := row_spec H d os avg i bufs ovr out ws ((List.range' (i + 1) k).flatMap (ovOf ovr)) hi (hws i hi (le_refl _))
      (hJ i (by omega)) (hA i (by omega)) (by omega) h1 hrest
    set R := rowOut os avg J0 A0 d bufs ovr with hR
    simp only [cmpRows, List.flatMap_cons, fits, List.map_cons, List.flatten_cons]
    by_cases h2 : out.length + (R i).length ≤ os + i * avg + 1
    · rw [Cmd.bind_ok (a h2)]
      have hsl : (ws.set i ⟨(R i).length, some ⟨ab, out.length⟩, some ⟨jb, out.length⟩⟩).length = n := by simp [hwl]
      obtain ⟨c, e⟩ := ih (i + 1) (out ++ R i) (ws.set i ⟨(R i).length, some ⟨ab, out.length⟩, some ⟨jb, out.length⟩⟩)
        (by omega) hsl (by rw [List.length_append, Nat.add_mul]; omega) (by
          intro r h hr
          rw [List.getElem_set_ne (by omega)]
          exact hws r (by omega) (by omega))
      rw [List.length_append] at c e
      refine ⟨fun hf => ?_, fun hf => ?_⟩
      · obtain ⟨ws', g1, g2, g3, g4⟩ := c hf.2
        refine ⟨ws', ?_, g2, ?_, ?_⟩
        · rw [List.length_append] at *
          rw [g1]
          simp [List.append_assoc]
        · intro r h h2 hr
          rw [g3 r h (by omega) (by omega), List.getElem_set_ne (by omega)]
        · intro r h hr
          by_cases hri : r = i
          · subst hri
            rw [g3 r h (by omega) (by omega)]
            simp [Mem.segOff]
          · rw [g4 r h (by omega)]
            have : r - i = (r - (i + 1)) + 1 := by omega
            rw [this, segOff_cons, Nat.add_assoc]
      · have := e (fun h => hf ⟨h2, h⟩)
        rw [← List.length_append] at this
        exact this
    · refine ⟨fun hf => absurd hf.1 h2, fun _ => ?_⟩
      obtain ⟨s', hs'⟩ := b (by omega)
      exact ⟨s', Cmd.bind_throw hs'⟩

end

end Bcrs
end Istl
