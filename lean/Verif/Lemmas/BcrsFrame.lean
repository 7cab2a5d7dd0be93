import Verif.Spec.Build
import Verif.Lemmas.Heap

/-! Building a matrix touches only memory allocated by that building. -/

namespace Istl
namespace Bcrs
variable {B : Type} {α β : Type}

/-- The pointer, if any, is into a block numbered at least `L`. -/
def PFresh (L : Nat) (p : Option Ptr) : Prop := ∀ q, p = some q → L ≤ q.blk

/-- All memory of the matrix is newer than the heap `h0`, which is unchanged. -/
structure Good (h0 : Heap B) (s : St B) : Prop where
  lj : h0.js.length ≤ s.h.js.length
  la : h0.as.length ≤ s.h.as.length
  fj : ∀ (c : Nat), c < h0.js.length → s.h.js[c]? = h0.js[c]?
  fa : ∀ (c : Nat), c < h0.as.length → s.h.as[c]? = h0.as[c]?
  dflt : s.h.dflt = h0.dflt
  vini : s.h.vini = h0.vini
  junk : s.h.junk = h0.junk
  pj : ∀ b, s.o.jarr = some b → h0.js.length ≤ b
  pa : ∀ b, s.o.a = some b → h0.as.length ≤ b
  pw : ∀ ws, s.o.rows = some ws → ∀ w ∈ ws, PFresh h0.js.length w.j ∧ PFresh h0.as.length w.p
  al0 : s.o.alloc = 0 → s.o.a = none
  alen : ∀ b, s.o.a = some b → ∃ l, s.h.as[b]? = some (some l) ∧ l.length = s.o.alloc

/-- A normal return of `c` keeps `Good`. -/
def Keeps (c : BC B α) : Prop := ∀ h0 s, Good h0 s → ∀ a s', c s = .ok a s' → Good h0 s'

theorem bind_inv {x : BC B α} {f : α → BC B β} {s : St B} {b : β} {s' : St B} (h : (x >>= f) s = .ok b s') :
    ∃ a s1, x s = .ok a s1 ∧ f a s1 = .ok b s' := by
  rw [Cmd.bind_def] at h
  cases hx : x s with
  | ok a s1 => rw [hx] at h; exact ⟨a, s1, rfl, h⟩
  | throw e s1 => rw [hx] at h; simp at h
  | ub => rw [hx] at h; simp at h

theorem lift_inv {r : Res α} {s s' : St B} {a : α} (h : (Cmd.lift r : BC B α) s = .ok a s') : r = .ok a ∧ s' = s := by
  cases r with
  | ok x => simp at h; exact ⟨by rw [h.1], h.2.symm⟩
  | throw e => simp at h
  | ub => simp at h

theorem Keeps.bind {x : BC B α} {f : α → BC B β} (hx : Keeps x) (hf : ∀ a, Keeps (f a)) : Keeps (x >>= f) := by
  intro h0 s G b s' h
  obtain ⟨a, s1, h1, h2⟩ := bind_inv h
  exact hf a h0 s1 (hx h0 s G a s1 h1) b s' h2

theorem Keeps.pure (a : α) : Keeps (Pure.pure a : BC B α) := by
  intro h0 s G b s' h
  simp at h; rw [← h.2]; exact G

theorem Keeps.raise (e : Exc) : Keeps (Cmd.raise e : BC B α) := by
  intro h0 s G b s' h
  simp at h

theorem Keeps.ite {c : Prop} [Decidable c] {x y : BC B α} (hx : Keeps x) (hy : Keeps y) : Keeps (if c then x else y) := by
  split <;> assumption

/-- What a write does to a memory. -/
theorem write_frame {γ : Type} {M M' : Mem γ} {p : Option Ptr} {xs : List γ} (h : M.write p xs = .ok M') :
    M'.length = M.length ∧ (∀ (c : Nat), (∀ q, p = some q → q.blk ≠ c) → M'[c]? = M[c]?) ∧
      ∀ (c : Nat) l, M[c]? = some (some l) → ∃ l', M'[c]? = some (some l') ∧ l'.length = l.length := by
  unfold Mem.write at h
  split at h
  · simp at h; subst h; exact ⟨rfl, fun _ _ => rfl, fun c l hl => ⟨l, hl, rfl⟩⟩
  · cases p with
    | none => simp at h
    | some p =>
      simp only at h
      split at h
      · rename_i l hl
        split at h
        · rename_i hle
          simp at h; subst h
          refine ⟨by simp, ?_, ?_⟩
          · intro c hc
            rw [List.getElem?_set_ne (hc p rfl)]
          · intro c l' hl'
            by_cases hc : p.blk = c
            · subst hc
              rw [hl] at hl'; simp at hl'; subst hl'
              refine ⟨_, by rw [List.getElem?_set_self (List.getElem?_eq_some_iff.mp hl).1], ?_⟩
              simp; omega
            · exact ⟨l', by rw [List.getElem?_set_ne hc, hl'], rfl⟩
        · simp at h
      · simp at h

theorem Good.write_j {h0 : Heap B} {s : St B} (G : Good h0 s) {p : Option Ptr} {xs : List Nat} {js : Mem Nat}
    (hw : s.h.js.write p xs = .ok js) (hp : PFresh h0.js.length p) : Good h0 { s with h := { s.h with js := js } } := by
  obtain ⟨e1, e2, -⟩ := write_frame hw
  refine { G with lj := by simp only [e1]; exact G.lj, fj := ?_ }
  intro c hc
  simp only
  rw [e2 c, G.fj c hc]
  intro q hq he
  have := hp q hq
  omega

theorem Good.write_a {h0 : Heap B} {s : St B} (G : Good h0 s) {p : Option Ptr} {xs : List B} {as : Mem B}
    (hw : s.h.as.write p xs = .ok as) (hp : PFresh h0.as.length p) : Good h0 { s with h := { s.h with as := as } } := by
  obtain ⟨e1, e2, e3⟩ := write_frame hw
  refine { G with la := by simp only [e1]; exact G.la, fa := ?_, alen := ?_ }
  · intro c hc
    simp only
    rw [e2 c, G.fa c hc]
    intro q hq he
    have := hp q hq
    omega
  · intro b hb
    obtain ⟨l, h1, h2⟩ := G.alen b hb
    obtain ⟨l', h3, h4⟩ := e3 b l h1
    exact ⟨l', h3, by rw [h4, h2]⟩

theorem PFresh.add {L : Nat} {p : Option Ptr} (h : PFresh L p) (k : Nat) :
    PFresh L (p.map fun q => { q with off := q.off + k }) := by
  intro q hq
  cases p with
  | none => simp at hq
  | some p => simp at hq; subst hq; exact h p rfl

theorem PFresh.none (L : Nat) : PFresh L none := by intro q hq; simp at hq

theorem PFresh.ofBlk {L : Nat} {b : Option Nat} (h : ∀ c, b = some c → L ≤ c) (off : Nat) :
    PFresh L (b.map fun c => (⟨c, off⟩ : Ptr)) := by
  intro q hq
  cases b with
  | none => simp at hq
  | some c => simp at hq; subst hq; exact h c rfl

/-- Changes to the object that keep the pointers fresh. -/
theorem Good.withRows {h0 : Heap B} {s : St B} (G : Good h0 s) (ws : Option (List Win))
    (h : ∀ l, ws = some l → ∀ w ∈ l, PFresh h0.js.length w.j ∧ PFresh h0.as.length w.p) :
    Good h0 { s with o := { s.o with rows := ws } } := { G with pw := h }

theorem row_inv {i : Nat} {s s' : St B} {w : Win} (h : row i s = .ok w s') :
    s' = s ∧ ∃ ws, s.o.rows = some ws ∧ w ∈ ws ∧ i < ws.length := by
  unfold row at h
  split at h
  · simp at h
  · rename_i ws hws
    split at h
    · rename_i w' hw
      simp at h
      obtain ⟨rfl, rfl⟩ := h
      exact ⟨rfl, ws, hws, List.mem_of_getElem? hw, (List.getElem?_eq_some_iff.mp hw).1⟩
    · simp at h

theorem keeps_row (i : Nat) : Keeps (row i : BC B Win) := by
  intro h0 s G w s' h
  rw [(row_inv h).1]; exact G

theorem setRow_good {h0 : Heap B} {s s' : St B} (G : Good h0 s) {i : Nat} {w : Win} {u : Unit}
    (hw : PFresh h0.js.length w.j ∧ PFresh h0.as.length w.p) (h : setRow i w s = .ok u s') : Good h0 s' := by
  unfold setRow at h
  split at h
  · simp at h
  · rename_i ws hws
    split at h
    · simp at h; subst h
      apply G.withRows
      intro l hl w' hw'
      simp at hl; subst hl
      rcases List.mem_or_eq_of_mem_set hw' with h | rfl
      · exact G.pw ws hws w' h
      · exact hw
    · simp at h

theorem row_good {h0 : Heap B} {s s' : St B} (G : Good h0 s) {i : Nat} {w : Win} (h : row i s = .ok w s') :
    s' = s ∧ PFresh h0.js.length w.j ∧ PFresh h0.as.length w.p := by
  obtain ⟨h1, ws, h2, h3, -⟩ := row_inv h
  exact ⟨h1, G.pw ws h2 w h3⟩

/-- The matrix at the start: no memory. -/
theorem good_empty (h : Heap B) (bm : BuildMode) (avg : Nat) (cbs : ℚ) : Good h ⟨h, empty bm avg cbs⟩ := by
  constructor <;> simp [empty]

theorem allocateData_good {h0 : Heap B} {s s' : St B} {u : Unit} (G : Good h0 s) (h : allocateData s = .ok u s') : Good h0 s' := by
  unfold allocateData at h
  split at h
  · simp at h
  · rename_i ha
    split at h
    · rename_i hz
      simp [Mem.alloc] at h; subst h
      refine { G with la := by simp; have := G.la; omega, fa := ?_, pa := ?_, al0 := by simp; omega, alen := ?_ }
      · intro c hc
        have := G.la
        simp only
        rw [List.getElem?_append_left (by omega), G.fa c hc]
      · intro b hb; simp at hb; subst hb; exact G.la
      · intro b hb; simp at hb; subst hb; exact ⟨_, List.getElem?_concat_length, by simp⟩
    · simp at h; subst h
      exact { G with pa := by simp, al0 := by simp, alen := by simp }

theorem allocateRows_good {h0 : Heap B} {s s' : St B} {u : Unit} {n : Nat} (G : Good h0 s) (h : allocateRows n s = .ok u s') :
    Good h0 s' := by
  unfold allocateRows at h
  split at h
  · split at h
    · simp at h
    · simp at h; subst h
      apply G.withRows
      intro l hl w hw
      simp at hl; subst hl
      obtain ⟨-, rfl⟩ := List.mem_replicate.mp hw
      exact ⟨.none _, .none _⟩
  · simp at h; subst h
    apply G.withRows
    simp

theorem allocateIdx_good {h0 : Heap B} {s s' : St B} {u : Unit} (G : Good h0 s) (h : allocateIdx s = .ok u s') : Good h0 s' := by
  unfold allocateIdx at h
  split at h
  · split at h
    · simp at h; subst h; exact G
    · simp [Mem.alloc] at h; subst h
      refine { G with lj := by simp; have := G.lj; omega, fj := ?_, pj := ?_ }
      · intro c hc
        have := G.lj
        simp only
        rw [List.getElem?_append_left (by omega), G.fj c hc]
      · intro b hb; simp at hb; subst hb; exact G.lj
  · simp at h; subst h
    exact { G with pj := by simp }

theorem setO_inv {f : Obj B → Obj B} {s s' : St B} {u : Unit} (h : setO f s = .ok u s') : s' = { s with o := f s.o } := by
  simp [setO] at h; exact h.symm

theorem allocate_good {h0 : Heap B} {s s' : St B} {u : Unit} {n m k : Nat} {r d : Bool} (G : Good h0 s) (ha : s.o.a = none)
    (h : allocate n m k r d s = .ok u s') : Good h0 s' := by
  unfold allocate at h
  obtain ⟨_, s1, h1, hk⟩ := bind_inv h; clear h; rename' hk => h
  have e1 := setO_inv h1
  have G1 : Good h0 s1 := by
    rw [e1]; exact { G with al0 := by simp [ha], alen := by simp [ha] }
  dsimp only at h
  clear h1 e1 G ha
  have key : ∀ s2, Good h0 s2 → (if d = true then (do
        let _ ← allocateData
        allocateIdx
        setO fun o => { o with ready := .building }) else (do
        allocateIdx
        setO fun o => { o with ready := .building }) : BC B Unit) s2 = .ok u s' → Good h0 s' := by
    intro s2 G2 h
    have fin : ∀ s3, Good h0 s3 → (do allocateIdx; setO fun o => { o with ready := .building } : BC B Unit) s3 = .ok u s' →
        Good h0 s' := by
      intro s3 G3 h
      obtain ⟨_, s4, h4, hk⟩ := bind_inv h; clear h; rename' hk => h
      have G4 := allocateIdx_good G3 h4
      rw [setO_inv h]
      exact { G4 with }
    split at h
    · obtain ⟨_, s3, h3, hk⟩ := bind_inv h; clear h; rename' hk => h
      exact fin s3 (allocateData_good G2 h3) h
    · exact fin s2 G2 h
  split at h
  · obtain ⟨_, s2, h2, hk⟩ := bind_inv h; clear h; rename' hk => h
    exact key s2 (allocateRows_good G1 h2) h
  · exact key s1 G1 h

theorem ctor_good (h : Heap B) (o : Obj B) {n m k : Nat} {bm : BuildMode} {s' : St B} {u : Unit}
    (hc : ctor n m k bm ⟨h, o⟩ = .ok u s') : Good h s' := by
  unfold ctor at hc
  obtain ⟨_, s1, h1, hc⟩ := bind_inv hc
  have e1 := setO_inv h1
  subst e1
  exact allocate_good (good_empty h bm 0 (-1)) rfl hc

theorem get_inv {s s' t : St B} (h : (Cmd.get : BC B (St B)) s = .ok t s') : t = s ∧ s' = s := by
  simp at h; exact ⟨h.1.symm, h.2.symm⟩

theorem modify_inv {f : St B → St B} {s s' : St B} {u : Unit} (h : (Cmd.modify f : BC B Unit) s = .ok u s') : s' = f s := by
  simp at h; exact h.symm

/-! ### Random mode -/

theorem keeps_setrowsize (i sz : Nat) : Keeps (setrowsize i sz : BC B Unit) := by
  intro h0 s G u s' h
  unfold setrowsize at h
  rw [Cmd.bind_ok (Cmd.get_apply s)] at h
  split at h
  · simp at h
  · split at h
    · simp at h
    · obtain ⟨w, s2, h2, hk⟩ := bind_inv h; clear h; rename' hk => h
      obtain ⟨rfl, hw⟩ := row_good G h2
      refine setRow_good G ?_ h
      exact hw

theorem keeps_incrementrowsize (i sz : Nat) : Keeps (incrementrowsize i sz : BC B Unit) := by
  intro h0 s G u s' h
  unfold incrementrowsize at h
  rw [Cmd.bind_ok (Cmd.get_apply s)] at h
  split at h
  · simp at h
  · split at h
    · simp at h
    · obtain ⟨w, s2, h2, hk⟩ := bind_inv h; clear h; rename' hk => h
      obtain ⟨rfl, hw⟩ := row_good G h2
      refine setRow_good G ?_ h
      exact hw

theorem keeps_runSizes (ops : List SizeOp) : Keeps (runSizes ops : BC B Unit) := by
  induction ops with
  | nil => exact Keeps.pure _
  | cons op ops ih =>
    unfold runSizes
    refine Keeps.bind ?_ fun _ => ih
    cases op with
    | set i sz => exact keeps_setrowsize i sz
    | inc i sz => exact keeps_incrementrowsize i sz

theorem colPointers_fresh {L La : Nat} {jb : Option Nat} (hj : ∀ b, jb = some b → L ≤ b) (ws : List Win) :
    ∀ (off : Nat), (∀ w ∈ ws, PFresh L w.j ∧ PFresh La w.p) → ∀ w ∈ colPointers jb off ws, PFresh L w.j ∧ PFresh La w.p := by
  induction ws with
  | nil => intro off _ w hw; simp [colPointers] at hw
  | cons x ws ih =>
    intro off h w hw
    simp only [colPointers, List.mem_cons] at hw
    rcases hw with rfl | hw
    · split
      · exact ⟨.ofBlk hj off, (h x (by simp)).2⟩
      · exact ⟨.none _, .none _⟩
    · exact ih _ (fun w hw => h w (by simp [hw])) w hw

theorem dataPointers_fresh {L La : Nat} {ab : Option Nat} (ha : ∀ b, ab = some b → La ≤ b) (ws : List Win) :
    ∀ (off : Nat), (∀ w ∈ ws, PFresh L w.j ∧ PFresh La w.p) → ∀ w ∈ dataPointers ab off ws, PFresh L w.j ∧ PFresh La w.p := by
  induction ws with
  | nil => intro off _ w hw; simp [dataPointers] at hw
  | cons x ws ih =>
    intro off h w hw
    simp only [dataPointers, List.mem_cons] at hw
    rcases hw with rfl | hw
    · split
      · exact ⟨(h x (by simp)).1, .ofBlk ha off⟩
      · exact ⟨.none _, .none _⟩
    · exact ih _ (fun w hw => h w (by simp [hw])) w hw

theorem endrowsizes_good {h0 : Heap B} {s s' : St B} {u : Unit} (G : Good h0 s) (ha : s.o.a = none)
    (h : endrowsizes s = .ok u s') : Good h0 s' := by
  unfold endrowsizes at h
  rw [Cmd.bind_ok (Cmd.get_apply s)] at h
  split at h
  · simp at h
  · split at h
    · simp at h
    · obtain ⟨_, s2, h2, hk⟩ := bind_inv h; clear h; rename' hk => h
      have G2 : Good h0 s2 := by
        unfold endrowsizesAlloc at h2
        split at h2
        · exact allocate_good G ha h2
        · split at h2
          · simp at h2
          · simp at h2; subst h2; exact G
      obtain ⟨_, s3, h3, hk⟩ := bind_inv h; clear h; rename' hk => h
      have G3 : Good h0 s3 := by
        rw [setO_inv h3]
        apply G2.withRows
        intro l hl
        cases hr : s2.o.rows with
        | none => rw [hr] at hl; simp at hl
        | some ws =>
          rw [hr] at hl; simp at hl; subst hl
          exact colPointers_fresh G2.pj ws 0 (G2.pw ws hr)
      rw [Cmd.bind_ok (Cmd.get_apply s3)] at h
      obtain ⟨js, s5, h5, hk⟩ := bind_inv h; clear h; rename' hk => h
      obtain ⟨h5, rfl⟩ := lift_inv h5
      obtain ⟨_, s6, h6, hk⟩ := bind_inv h; clear h; rename' hk => h
      rw [setO_inv h, modify_inv h6]
      have := G3.write_j h5 (.ofBlk G3.pj 0)
      exact { this with }

theorem bind_throw_inv {x : BC B α} {f : α → BC B β} {s s' : St B} {e : Exc} (h : (x >>= f) s = .throw e s') :
    x s = .throw e s' ∨ ∃ a s1, x s = .ok a s1 ∧ f a s1 = .throw e s' := by
  rw [Cmd.bind_def] at h
  cases hx : x s with
  | ok a s1 => rw [hx] at h; exact .inr ⟨a, s1, rfl, h⟩
  | throw e s1 => rw [hx] at h; simp at h; left; rw [h.1, h.2]
  | ub => rw [hx] at h; simp at h

theorem lift_throw_inv {r : Res α} {s s' : St B} {e : Exc} (h : (Cmd.lift r : BC B α) s = .throw e s') : s' = s := by
  cases r with
  | ok x => simp at h
  | throw e => simp at h; exact h.2.symm
  | ub => simp at h

theorem row_throw {i : Nat} {s s' : St B} {e : Exc} (h : (row i : BC B Win) s = .throw e s') : False := by
  unfold row at h
  split at h
  · simp at h
  · split at h <;> simp at h

/-- `addindex` that throws changes nothing at all. -/
theorem addindex_throw {r col : Nat} {s s' : St B} {e : Exc} (h : addindex r col s = .throw e s') : s' = s := by
  unfold addindex at h
  rw [Cmd.bind_ok (Cmd.get_apply s)] at h
  iterate 5
    split at h
    · simp at h; exact h.2.symm
  rcases bind_throw_inv h with h | ⟨w, s1, h1, h⟩
  · exact (row_throw h).elim
  obtain ⟨rfl, -⟩ := row_inv h1
  rcases bind_throw_inv h with h | ⟨xs, s2, h2, h⟩
  · exact lift_throw_inv h
  obtain ⟨-, rfl⟩ := lift_inv h2
  rcases bind_throw_inv h with h | ⟨pos, s3, h3, h⟩
  · exact lift_throw_inv h
  obtain ⟨-, rfl⟩ := lift_inv h3
  rcases bind_throw_inv h with h | ⟨fd, s4, h4, h⟩
  · exact lift_throw_inv h
  obtain ⟨-, rfl⟩ := lift_inv h4
  split at h
  · simp at h
  rcases bind_throw_inv h with h | ⟨en, s5, h5, h⟩
  · exact lift_throw_inv h
  obtain ⟨-, rfl⟩ := lift_inv h5
  split at h
  · simp at h; exact h.2.symm
  rcases bind_throw_inv h with h | ⟨js, s6, h6, h⟩
  · exact lift_throw_inv h
  simp at h

theorem keeps_addindex (r col : Nat) : Keeps (addindex r col : BC B Unit) := by
  intro h0 s G u s' h
  unfold addindex at h
  rw [Cmd.bind_ok (Cmd.get_apply s)] at h
  iterate 5
    split at h
    · simp at h
  obtain ⟨w, s1, h1, hk⟩ := bind_inv h; clear h; rename' hk => h
  obtain ⟨rfl, hw⟩ := row_good G h1
  obtain ⟨xs, s2, h2, hk⟩ := bind_inv h; clear h; rename' hk => h
  obtain ⟨-, rfl⟩ := lift_inv h2
  obtain ⟨xs, s2, h2, hk⟩ := bind_inv h; clear h; rename' hk => h
  obtain ⟨-, rfl⟩ := lift_inv h2
  obtain ⟨xs, s2, h2, hk⟩ := bind_inv h; clear h; rename' hk => h
  obtain ⟨-, rfl⟩ := lift_inv h2
  split at h
  · simp at h; subst h; exact G
  obtain ⟨xs, s2, h2, hk⟩ := bind_inv h; clear h; rename' hk => h
  obtain ⟨-, rfl⟩ := lift_inv h2
  split at h
  · simp at h
  obtain ⟨js, s2, h2, hk⟩ := bind_inv h; clear h; rename' hk => h
  obtain ⟨h2, rfl⟩ := lift_inv h2
  rw [modify_inv h]
  exact G.write_j h2 hw.1

theorem keeps_runAdds (calls : List (Nat × Nat)) : Keeps (runAdds calls : BC B Unit) := by
  induction calls with
  | nil => exact Keeps.pure _
  | cons c calls ih =>
    unfold runAdds
    refine Keeps.bind ?_ fun _ => ih
    intro h0 s G u s' h
    unfold attempt at h
    split at h
    · rename_i s1 h1
      simp at h; subst h
      exact keeps_addindex _ _ h0 s G _ _ h1
    · rename_i s1 h1
      simp at h; subst h
      rw [addindex_throw h1]; exact G
    · simp at h

theorem truncRows_fresh {L La : Nat} (js : Mem Nat) (m : Nat) (ws : List Win) :
    ∀ (nnz : Nat) (ws' : List Win) (k : Nat), truncRows js m ws nnz = .ok (ws', k) → (∀ w ∈ ws, PFresh L w.j ∧ PFresh La w.p) →
      ∀ w ∈ ws', PFresh L w.j ∧ PFresh La w.p := by
  induction ws with
  | nil => intro nnz ws' k h _ w hw; simp [truncRows] at h; rw [h.1] at hw; simp at hw
  | cons x ws ih =>
    intro nnz ws' k h hf w hw
    unfold truncRows at h
    obtain ⟨xs, -, h⟩ := Res.bind_eq_ok.mp h
    dsimp only at h
    obtain ⟨⟨w1, k1⟩, h1, h⟩ := Res.bind_eq_ok.mp h
    simp at h
    rw [← h.1] at hw
    rcases List.mem_cons.mp hw with rfl | hw
    · exact hf x (by simp)
    · exact ih _ _ _ h1 (fun w hw => hf w (by simp [hw])) w hw

theorem keeps_endindices : Keeps (endindices : BC B Unit) := by
  intro h0 s G u s' h
  unfold endindices at h
  rw [Cmd.bind_ok (Cmd.get_apply s)] at h
  iterate 4
    split at h
    · simp at h
  obtain ⟨⟨ws, nnz⟩, s1, h1, hk⟩ := bind_inv h; clear h; rename' hk => h
  obtain ⟨h1, rfl⟩ := lift_inv h1
  dsimp only at h
  obtain ⟨_, s2, h2, hk⟩ := bind_inv h; clear h; rename' hk => h
  have G2 : Good h0 s2 := by
    rw [setO_inv h2]
    have := G.withRows (s1.o.rows.map fun _ => ws) (by
      intro l hl
      cases hr : s1.o.rows with
      | none => rw [hr] at hl; simp at hl
      | some l0 =>
        rw [hr] at hl h1
        simp at hl; subst hl
        exact truncRows_fresh _ _ _ _ _ _ h1 (G.pw l0 hr))
    exact { this with }
  obtain ⟨_, s3, h3, hk⟩ := bind_inv h; clear h; rename' hk => h
  have G3 := allocateData_good G2 h3
  rw [setO_inv h]
  have := G3.withRows (s3.o.rows.map (dataPointers s3.o.a 0)) (by
    intro l hl
    cases hr : s3.o.rows with
    | none => rw [hr] at hl; simp at hl
    | some l0 =>
      rw [hr] at hl
      simp at hl; subst hl
      exact dataPointers_fresh G3.pa l0 0 (G3.pw l0 hr))
  exact { this with }

/-! ### Row-wise mode -/

theorem place_good {h0 : Heap B} {s s' : St B} {c : CIter} {nnz : Nat} {p : Option Ptr} (G : Good h0 s)
    (hc : PFresh h0.js.length c.cur) (h : c.place nnz s = .ok p s') : Good h0 s' ∧ PFresh h0.js.length p := by
  unfold CIter.place at h
  dsimp only at h
  split at h
  · split at h
    · split at h
      · simp at h
      · obtain ⟨_, s1, h1, hk⟩ := bind_inv h; clear h; rename' hk => h
        simp at h
        rw [← h.1, ← h.2]
        exact ⟨setRow_good G ⟨hc, .none _⟩ h1, hc.add _⟩
    · obtain ⟨_, s1, h1, hk⟩ := bind_inv h; clear h; rename' hk => h
      simp at h
      rw [← h.1, ← h.2]
      refine ⟨?_, hc⟩
      refine setRow_good (h0 := h0) ?_ ?_ h1
      · have hl := G.lj
        have hl' := G.la
        refine { G with lj := by simp [Mem.alloc]; omega, la := by simp [Mem.alloc]; omega, fj := ?_, fa := ?_, alen := ?_ }
        · intro b hb
          simp only [Mem.alloc]
          rw [List.getElem?_append_left (by omega), G.fj b hb]
        · intro b hb
          simp only [Mem.alloc]
          rw [List.getElem?_append_left (by omega), G.fa b hb]
        · intro b hb
          obtain ⟨l, e1, e2⟩ := G.alen b hb
          refine ⟨l, ?_, e2⟩
          simp only [Mem.alloc]
          rw [List.getElem?_append_left (List.getElem?_eq_some_iff.mp e1).1, e1]
      · constructor <;> intro q hq <;> simp [Mem.alloc] at hq <;> subst hq
        · exact G.lj
        · exact G.la
  · obtain ⟨_, s1, h1, hk⟩ := bind_inv h; clear h; rename' hk => h
    simp at h
    rw [← h.1, ← h.2]
    exact ⟨setRow_good G ⟨.none _, .none _⟩ h1, hc⟩

theorem keeps_finish (c : CIter) (nnz : Nat) : Keeps (c.finish nnz : BC B Unit) := by
  intro h0 s G u s' h
  unfold CIter.finish at h
  split at h
  · split at h
    · obtain ⟨_, s1, h1, hk⟩ := bind_inv h; clear h; rename' hk => h
      have G1 : Good h0 s1 := by rw [setO_inv h1]; exact { G with }
      obtain ⟨_, s3, h3, hk⟩ := bind_inv h; clear h; rename' hk => h
      have G3 := allocateData_good G1 h3
      rw [setO_inv h]
      exact G3.withRows (s3.o.rows.map (dataPointers s3.o.a 0)) (by
        intro l hl
        cases hr : s3.o.rows with
        | none => rw [hr] at hl; simp at hl
        | some l0 =>
          rw [hr] at hl
          simp at hl; subst hl
          exact dataPointers_fresh G3.pa l0 0 (G3.pw l0 hr))
    · simp at h; subst h; exact { G with }
  · simp at h; subst h; exact G

theorem next_good {h0 : Heap B} {s s' : St B} {c c' : CIter} (G : Good h0 s) (hc : PFresh h0.js.length c.cur)
    (h : c.next s = .ok c' s') : Good h0 s' ∧ PFresh h0.js.length c'.cur := by
  unfold CIter.next at h
  rw [Cmd.bind_ok (Cmd.get_apply s)] at h
  split at h
  · simp at h
  dsimp only at h
  obtain ⟨cur, s1, h1, hk⟩ := bind_inv h; clear h; rename' hk => h
  obtain ⟨G1, hcur⟩ := place_good G hc h1
  obtain ⟨w, s2, h2, hk⟩ := bind_inv h; clear h; rename' hk => h
  obtain ⟨rfl, hw⟩ := row_good G1 h2
  rw [Cmd.bind_ok (Cmd.get_apply s2)] at h
  obtain ⟨js, s3, h3, hk⟩ := bind_inv h; clear h; rename' hk => h
  obtain ⟨h3, rfl⟩ := lift_inv h3
  obtain ⟨_, s4, h4, hk⟩ := bind_inv h; clear h; rename' hk => h
  have G4 : Good h0 s4 := by rw [modify_inv h4]; exact G1.write_j h3 hw.1
  obtain ⟨_, s5, h5, hk⟩ := bind_inv h; clear h; rename' hk => h
  have G5 := keeps_finish _ _ h0 s4 G4 _ _ h5
  simp at h
  rw [← h.1, ← h.2]
  exact ⟨G5, hcur⟩

theorem insert_cur (cols : List Nat) (c : CIter) : (cols.foldl CIter.insert c).cur = c.cur := by
  induction cols generalizing c with
  | nil => rfl
  | cons x xs ih => simp only [List.foldl_cons]; rw [ih]; rfl

theorem buildRows_good (todo : List (List Nat)) : ∀ {h0 : Heap B} {s s' : St B} {c : CIter} {u : Unit}, Good h0 s →
    PFresh h0.js.length c.cur → buildRows c todo s = .ok u s' → Good h0 s' := by
  induction todo with
  | nil => intro h0 s s' c u G _ h; simp [buildRows] at h; subst h; exact G
  | cons cols todo ih =>
    intro h0 s s' c u G hc h
    unfold buildRows at h
    obtain ⟨c1, s1, h1, hk⟩ := bind_inv h; clear h; rename' hk => h
    obtain ⟨G1, hc1⟩ := next_good G (by rw [insert_cur]; exact hc) h1
    exact ih G1 hc1 h

theorem createbegin_good {h0 : Heap B} {s s' : St B} {c : CIter} (G : Good h0 s) (h : createbegin s = .ok c s') :
    Good h0 s' ∧ PFresh h0.js.length c.cur := by
  unfold createbegin at h
  obtain ⟨_, s1, h1, hk⟩ := bind_inv h; clear h; rename' hk => h
  have G1 : Good h0 s1 := by
    rw [setO_inv h1]
    by_cases hc : s.o.mode = .unknown ∧ s.o.ready = .building
    · simp only [hc, and_self, if_true]; exact { G with }
    · simp only [hc, if_false]; exact G
  rw [Cmd.bind_ok (Cmd.get_apply s1)] at h
  split at h
  · simp at h
  split at h
  · simp at h
  dsimp only at h
  split at h
  · obtain ⟨_, s2, h2, hk⟩ := bind_inv h; clear h; rename' hk => h
    simp at h
    rw [← h.1, ← h.2, setO_inv h2]
    exact ⟨{ G1 with }, .ofBlk G1.pj 0⟩
  · simp at h
    rw [← h.1, ← h.2]
    exact ⟨G1, .ofBlk G1.pj 0⟩

/-! ### Implicit mode -/

theorem implicitAllocate_good {h0 : Heap B} {s s' : St B} {n m : Nat} {u : Unit} (G : Good h0 s) (ha : s.o.a = none)
    (h : implicitAllocate n m s = .ok u s') : Good h0 s' := by
  unfold implicitAllocate at h
  rw [Cmd.bind_ok (Cmd.get_apply s)] at h
  iterate 3
    split at h
    · simp at h
  dsimp only at h
  obtain ⟨_, s1, h1, hk⟩ := bind_inv h; clear h; rename' hk => h
  have G1 := allocate_good G ha h1
  rw [setO_inv h]
  have := G1.withRows (s1.o.rows.map fun ws => (List.range ws.length).map fun i =>
        ⟨0, s1.o.a.map fun b => ⟨b, osize n s.o.avg s.o.cbs + i * s1.o.avg⟩,
          s1.o.jarr.map fun b => ⟨b, osize n s.o.avg s.o.cbs + i * s1.o.avg⟩⟩) (by
    intro l hl
    cases hr : s1.o.rows with
    | none => rw [hr] at hl; simp at hl
    | some l0 =>
      rw [hr] at hl
      simp at hl; subst hl
      intro w hw
      simp at hw
      obtain ⟨i, -, rfl⟩ := hw
      exact ⟨.ofBlk G1.pj _, .ofBlk G1.pa _⟩)
  exact { this with }

theorem ctorImplicit_good (h : Heap B) (o : Obj B) {n m avg : Nat} {cbs : ℚ} {bm : BuildMode} {s' : St B} {u : Unit}
    (hc : ctorImplicit n m avg cbs bm ⟨h, o⟩ = .ok u s') : Good h s' := by
  unfold ctorImplicit at hc
  obtain ⟨_, s1, h1, hc⟩ := bind_inv hc
  have e1 := setO_inv h1
  subst e1
  split at hc
  · simp at hc
  split at hc
  · simp at hc
  exact implicitAllocate_good (good_empty h bm avg cbs) rfl hc

theorem keeps_entry (r col : Nat) (f : B → B) : Keeps (entry r col f : BC B Unit) := by
  intro h0 s G u s' h
  unfold entry at h
  obtain ⟨w, s1, h1, hk⟩ := bind_inv h; clear h; rename' hk => h
  obtain ⟨rfl, hw⟩ := row_good G h1
  rw [Cmd.bind_ok (Cmd.get_apply s1)] at h
  obtain ⟨xs, s2, h2, hk⟩ := bind_inv h; clear h; rename' hk => h
  obtain ⟨-, rfl⟩ := lift_inv h2
  dsimp only at h
  split at h
  · obtain ⟨v, s3, h3, hk⟩ := bind_inv h; clear h; rename' hk => h
    obtain ⟨-, rfl⟩ := lift_inv h3
    obtain ⟨as, s4, h4, hk⟩ := bind_inv h; clear h; rename' hk => h
    obtain ⟨h4, rfl⟩ := lift_inv h4
    rw [modify_inv h]
    exact G.write_a h4 (hw.2.add _)
  · split at h
    · rw [setO_inv h]; exact { G with }
    · obtain ⟨js, s3, h3, hk⟩ := bind_inv h; clear h; rename' hk => h
      obtain ⟨h3, rfl⟩ := lift_inv h3
      obtain ⟨_, s4, h4, hk⟩ := bind_inv h; clear h; rename' hk => h
      have G4 := setRow_good G (w := { w with sz := w.sz + 1 }) hw h4
      have hh : s4.h = s3.h := by
        unfold setRow at h4
        split at h4
        · simp at h4
        · split at h4
          · simp at h4; subst h4; rfl
          · simp at h4
      obtain ⟨v, s5, h5, hk⟩ := bind_inv h; clear h; rename' hk => h
      obtain ⟨-, rfl⟩ := lift_inv h5
      obtain ⟨as, s6, h6, hk⟩ := bind_inv h; clear h; rename' hk => h
      obtain ⟨h6', rfl⟩ := lift_inv h6; clear h6; rename' h6' => h6
      rw [modify_inv h]
      rw [← hh] at h3 h6
      have G5 := G4.write_j h3 (hw.1.add _)
      exact G5.write_a h6 (hw.2.add _)

theorem keeps_runEntries (acc : List (Access B)) : Keeps (runEntries acc) := by
  induction acc with
  | nil => exact Keeps.pure _
  | cons a acc ih => exact Keeps.bind (keeps_entry _ _ _) fun _ => ih

theorem keeps_cmpPut (b col : Nat) (v : B) (c : Cmp B) : Keeps (cmpPut b col v c) := by
  intro h0 s G u s' h
  unfold cmpPut at h
  split at h
  · simp at h
  rw [Cmd.bind_ok (Cmd.get_apply s)] at h
  obtain ⟨js, s1, h1, hk⟩ := bind_inv h; clear h; rename' hk => h
  obtain ⟨h1, rfl⟩ := lift_inv h1
  obtain ⟨as, s2, h2, hk⟩ := bind_inv h; clear h; rename' hk => h
  obtain ⟨h2, rfl⟩ := lift_inv h2
  obtain ⟨_, s3, h3, hk⟩ := bind_inv h; clear h; rename' hk => h
  simp at h
  rw [← h.2, modify_inv h3]
  exact (G.write_j h1 (.ofBlk G.pj _)).write_a h2 (.ofBlk G.pa _)

theorem keeps_cmpMove (b p : Nat) (c : Cmp B) : Keeps (cmpMove b p c) := by
  intro h0 s G u s' h
  unfold cmpMove at h
  split at h
  · simp at h
  rw [Cmd.bind_ok (Cmd.get_apply s)] at h
  obtain ⟨x, s1, h1, hk⟩ := bind_inv h; clear h; rename' hk => h
  obtain ⟨-, rfl⟩ := lift_inv h1
  obtain ⟨js, s1, h1, hk⟩ := bind_inv h; clear h; rename' hk => h
  obtain ⟨h1, rfl⟩ := lift_inv h1
  obtain ⟨v, s1, h2, hk⟩ := bind_inv h; clear h; rename' hk => h
  obtain ⟨-, rfl⟩ := lift_inv h2
  obtain ⟨as, s2, h2, hk⟩ := bind_inv h; clear h; rename' hk => h
  obtain ⟨h2, rfl⟩ := lift_inv h2
  obtain ⟨_, s3, h3, hk⟩ := bind_inv h; clear h; rename' hk => h
  simp at h
  rw [← h.2, modify_inv h3]
  exact (G.write_j h1 (.ofBlk G.pj _)).write_a h2 (.ofBlk G.pa _)

theorem keeps_bumpRow (i : Nat) : Keeps (bumpRow i : BC B Unit) := by
  intro h0 s G u s' h
  unfold bumpRow at h
  obtain ⟨w, s1, h1, hk⟩ := bind_inv h; clear h; rename' hk => h
  obtain ⟨rfl, hw⟩ := row_good G h1
  refine setRow_good G ?_ h
  exact hw

theorem keeps_lift (r : Res α) : Keeps (Cmd.lift r : BC B α) := by
  intro h0 s G a s' h
  rw [(lift_inv h).2]; exact G

theorem keeps_get : Keeps (Cmd.get : BC B (St B)) := by
  intro h0 s G a s' h
  simp at h; rw [← h.2]; exact G

theorem keeps_cmpOv (i b : Nat) (src : Option Nat) (l : List ((Nat × Nat) × B)) : ∀ c : Cmp B, Keeps (cmpOv i b src l c) := by
  induction l with
  | nil => intro c; exact Keeps.pure _
  | cons e es ih =>
    intro c
    unfold cmpOv
    refine keeps_get.bind fun s => (keeps_lift _).bind fun t => .ite ?_ (.pure _)
    exact (keeps_cmpPut _ _ _ _).bind fun c => (keeps_bumpRow _).bind fun _ => ih c

theorem keeps_cmpPerm (i b : Nat) (ps : List Nat) : ∀ c : Cmp B, Keeps (cmpPerm i b ps c) := by
  induction ps with
  | nil => intro c; exact Keeps.pure _
  | cons p ps ih =>
    intro c
    unfold cmpPerm
    exact (keeps_cmpOv _ _ _ _ _).bind fun c => (keeps_cmpMove _ _ _).bind fun c => ih c

theorem keeps_cmpRow (i : Nat) (c : Cmp B) : Keeps (cmpRow i c) := by
  intro h0 s G u s' h
  unfold cmpRow at h
  obtain ⟨w, s1, h1, hk⟩ := bind_inv h; clear h; rename' hk => h
  obtain ⟨rfl, hw⟩ := row_good G h1
  rw [Cmd.bind_ok (Cmd.get_apply s1)] at h
  obtain ⟨xs, s2, h2, hk⟩ := bind_inv h; clear h; rename' hk => h
  obtain ⟨-, rfl⟩ := lift_inv h2
  dsimp only at h
  obtain ⟨_, s3, h3, hk⟩ := bind_inv h; clear h; rename' hk => h
  have G3 := setRow_good G ⟨.ofBlk G.pj _, .ofBlk G.pa _⟩ h3
  obtain ⟨c1, s4, h4, hk⟩ := bind_inv h; clear h; rename' hk => h
  have G4 := keeps_cmpPerm _ _ _ _ h0 s3 G3 _ _ h4
  exact keeps_cmpOv _ _ _ _ _ h0 s4 G4 _ _ h

theorem keeps_cmpRows (is : List Nat) : ∀ c : Cmp B, Keeps (cmpRows is c) := by
  induction is with
  | nil => intro c; exact Keeps.pure _
  | cons i is ih => intro c; unfold cmpRows; exact (keeps_cmpRow _ _).bind fun c => ih c

theorem keeps_compress : Keeps (compress : BC B Unit) := by
  intro h0 s G u s' h
  unfold compress at h
  rw [Cmd.bind_ok (Cmd.get_apply s)] at h
  iterate 4
    split at h
    · simp at h
  obtain ⟨c, s1, h1, hk⟩ := bind_inv h; clear h; rename' hk => h
  have G1 := keeps_cmpRows _ _ h0 s G _ _ h1
  obtain ⟨_, s2, h2, hk⟩ := bind_inv h; clear h; rename' hk => h
  have G2 : Good h0 s2 := by rw [setO_inv h2]; exact { G1 with }
  obtain ⟨_, s3, h3, hk⟩ := bind_inv h; clear h; rename' hk => h
  have G3 : Good h0 s3 := by
    unfold cmpNnz at h3
    split at h3
    · simp at h3; subst h3; exact G2
    · obtain ⟨w, s4, h4, hk⟩ := bind_inv h3; clear h3; rename' hk => h3
      obtain ⟨rfl, -⟩ := row_inv h4
      rw [setO_inv h3]; exact { G2 with }
  rw [setO_inv h]
  exact { G3 with }

end Bcrs
end Istl
