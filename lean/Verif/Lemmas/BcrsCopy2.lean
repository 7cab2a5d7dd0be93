import Verif.Lemmas.BcrsCopy

/-! Releasing and copying matrices. -/

namespace Istl
namespace BcrsWorld
open Bcrs
variable {B : Type}

/-- The constants of two memories agree. -/
def SameC (h h' : Heap B) : Prop := h'.dflt = h.dflt ∧ h'.vini = h.vini ∧ h'.junk = h.junk

theorem freeRows_spec (ws : List Win) : ∀ {h : Heap B},
    (∀ w ∈ ws, 0 < w.sz → ∃ jb ab lj la, w.j = some ⟨jb, 0⟩ ∧ w.p = some ⟨ab, 0⟩ ∧ h.js[jb]? = some (some lj) ∧
      h.as[ab]? = some (some la)) →
    ws.Pairwise (fun w w' => 0 < w.sz → 0 < w'.sz → w.j.map Ptr.blk ≠ w'.j.map Ptr.blk ∧ w.p.map Ptr.blk ≠ w'.p.map Ptr.blk) →
    ∃ h' ws', freeRows h ws = .ok (h', ws') ∧ ws'.length = ws.length ∧ h'.js.length = h.js.length ∧
      h'.as.length = h.as.length ∧ SameC h h' ∧
      (∀ (c : Nat), (∀ w ∈ ws, 0 < w.sz → w.j.map Ptr.blk ≠ some c) → h'.js[c]? = h.js[c]?) ∧
      (∀ (c : Nat), (∀ w ∈ ws, 0 < w.sz → w.p.map Ptr.blk ≠ some c) → h'.as[c]? = h.as[c]?) := by
  induction ws with
  | nil => intro h _ _; exact ⟨h, [], rfl, rfl, rfl, rfl, ⟨rfl, rfl, rfl⟩, fun _ _ => rfl, fun _ _ => rfl⟩
  | cons w ws ih =>
    intro h hl hp
    obtain ⟨hp1, hp2⟩ := List.pairwise_cons.mp hp
    by_cases h0 : 0 < w.sz
    · obtain ⟨jb, ab, lj, la, f1, f2, f3, f4⟩ := hl w (by simp) h0
      have ej : h.js.free w.j = .ok (h.js.set jb none) := by rw [f1]; simp [Mem.free, f3]
      have ea : h.as.free w.p = .ok (h.as.set ab none) := by rw [f2]; simp [Mem.free, f4]
      obtain ⟨h', ws', g1, g2, g3, g4, g5, g6, g7⟩ := ih (h := { h with js := h.js.set jb none, as := h.as.set ab none }) (by
        intro w' hw' h0'
        obtain ⟨jb', ab', lj', la', f1', f2', f3', f4'⟩ := hl w' (by simp [hw']) h0'
        have hne := hp1 w' hw' h0 h0'
        rw [f1, f2, f1', f2'] at hne
        refine ⟨jb', ab', lj', la', f1', f2', ?_, ?_⟩
        · dsimp only; rw [List.getElem?_set_ne, f3']; rintro rfl; exact hne.1 rfl
        · dsimp only; rw [List.getElem?_set_ne, f4']; rintro rfl; exact hne.2 rfl) hp2
      refine ⟨h', ⟨0, none, none⟩ :: ws', ?_, by simp [g2], by simpa using g3, by simpa using g4, g5, ?_, ?_⟩
      · simp only [freeRows, h0, if_true, ej, ea, Res.ok_bind]
        simp only [g1, Res.ok_bind]
      · intro c hc
        rw [g6 c fun w' hw' h0' => hc w' (by simp [hw']) h0']
        dsimp only
        rw [List.getElem?_set_ne]
        rintro rfl
        exact hc w (by simp) h0 (by rw [f1]; rfl)
      · intro c hc
        rw [g7 c fun w' hw' h0' => hc w' (by simp [hw']) h0']
        dsimp only
        rw [List.getElem?_set_ne]
        rintro rfl
        exact hc w (by simp) h0 (by rw [f2]; rfl)
    · obtain ⟨h', ws', g1, g2, g3, g4, g5, g6, g7⟩ := ih (h := h) (fun w' hw' => hl w' (by simp [hw'])) hp2
      refine ⟨h', w :: ws', ?_, by simp [g2], g3, g4, g5, ?_, ?_⟩
      · simp only [freeRows, h0, if_false, g1, Res.ok_bind]
      · intro c hc; exact g6 c fun w' hw' => hc w' (by simp [hw'])
      · intro c hc; exact g7 c fun w' hw' => hc w' (by simp [hw'])

/-- The row array is missing or has the right length. -/
def RowsLen (o : Obj B) (n : Nat) : Prop := if n = 0 then o.rows = none else ∃ ws, o.rows = some ws ∧ ws.length = n

/-- `deallocate` releases exactly the memory of the matrix. -/
theorem Rep.dealloc {h : Heap B} {o : Obj B} {v : Val B} (R : Rep h o v) (d : Bool) :
    ∃ h' o', deallocate d ⟨h, o⟩ = .ok () ⟨h', o'⟩ ∧ h'.js.length = h.js.length ∧ h'.as.length = h.as.length ∧ SameC h h' ∧
      (∀ (c : Nat), ¬ OwnJ o c → h'.js[c]? = h.js[c]?) ∧ (∀ (c : Nat), ¬ OwnA o c → h'.as[c]? = h.as[c]?) ∧
      o'.a = none ∧ o'.n = o.n ∧ (d = false → RowsLen o' o.n) ∧ (d = true → o'.rows = none) ∧ o'.ready = .notAllocated := by
  obtain ⟨ws, hr, hl, -⟩ := R.wins
  have hrl : RowsLen o o.n := by
    unfold RowsLen
    rw [hr.2]
    split
    · rename_i h0; rfl
    · exact ⟨ws, rfl, hr.1⟩
  have hrn : o.n = 0 → o.rows = none := by intro h0; rw [hr.2, if_pos h0]
  -- the final step
  have fin : ∀ (h1 : Heap B) (o1 : Obj B), (match o1 with | o1 => o1.n = o.n ∧ o1.a = none ∧ RowsLen o1 o.n) →
      ({ o1 with rows := if d = true ∧ 0 < o1.n then none else o1.rows, ready := Stage.notAllocated } : Obj B).a = none ∧
      ({ o1 with rows := if d = true ∧ 0 < o1.n then none else o1.rows, ready := Stage.notAllocated } : Obj B).n = o.n ∧
      (d = false → RowsLen ({ o1 with rows := if d = true ∧ 0 < o1.n then none else o1.rows, ready := Stage.notAllocated } : Obj B) o.n) ∧
      (d = true → ({ o1 with rows := if d = true ∧ 0 < o1.n then none else o1.rows, ready := Stage.notAllocated } : Obj B).rows = none) := by
    intro h1 o1 ⟨e1, e2, e3⟩
    refine ⟨e2, e1, ?_, ?_⟩
    · intro hd
      subst hd
      simpa [RowsLen] using e3
    · intro hd
      subst hd
      simp only [true_and]
      split
      · rfl
      · rename_i hn
        have hn0 : o.n = 0 := by omega
        unfold RowsLen at e3
        rw [if_pos hn0] at e3
        exact e3
  by_cases hal : 0 < o.alloc
  · cases ha : o.a with
    | none =>
      have := fin h { o with jarr := none } ⟨rfl, ha, hrl⟩
      refine ⟨h, _, by simp only [deallocate, hal, if_true, ha], rfl, rfl, ⟨rfl, rfl, rfl⟩, fun _ _ => rfl, fun _ _ => rfl, this.1,
        this.2.1, this.2.2.1, this.2.2.2, rfl⟩
    | some b =>
      have hP : ∃ rj rv ws, Packed h o v rj rv ws := by
        rcases R.alt with P | ⟨ws, L⟩
        · exact P
        · rw [L.P.a0] at ha; cases ha
      obtain ⟨rj, rv, ws', P⟩ := hP
      have hH := P.S.ha
      simp only [ha, Mem.Holds] at hH
      have := fin h { o with jarr := none, a := none } ⟨rfl, rfl, hrl⟩
      have ef : h.as.free (some ⟨b, 0⟩) = .ok (h.as.set b none) := by simp [Mem.free, hH]
      refine ⟨{ h with as := h.as.set b none }, _, by simp only [deallocate, hal, if_true, ha, ef], rfl, by simp, ⟨rfl, rfl, rfl⟩,
        fun _ _ => rfl, ?_, this.1, this.2.1, this.2.2.1, this.2.2.2, rfl⟩
      intro c hc
      dsimp only
      rw [List.getElem?_set_ne]
      rintro rfl
      exact hc (.inl ha)
  · have hal0 : o.alloc = 0 := by omega
    have ha0 : o.a = none := by
      rcases R.alt with ⟨rj, rv, ws, P⟩ | ⟨ws, L⟩
      · exact P.al0 hal0
      · exact L.P.a0
    by_cases hn0 : o.n = 0
    · have hrows := hrn hn0
      have := fin h o ⟨rfl, ha0, hrl⟩
      exact ⟨h, { o with rows := if d = true ∧ 0 < o.n then none else o.rows, ready := Stage.notAllocated }, by
        simp [deallocate, hal, hrows], rfl, rfl, ⟨rfl, rfl, rfl⟩, fun _ _ => rfl, fun _ _ => rfl, this.1, this.2.1, this.2.2.1,
        this.2.2.2, rfl⟩
    · have hrows : o.rows = some ws := by rw [hr.2, if_neg hn0]
      have hlive : (∀ w ∈ ws, 0 < w.sz → ∃ jb ab lj la, w.j = some ⟨jb, 0⟩ ∧ w.p = some ⟨ab, 0⟩ ∧ h.js[jb]? = some (some lj) ∧
          h.as[ab]? = some (some la)) ∧
          ws.Pairwise (fun w w' => 0 < w.sz → 0 < w'.sz → w.j.map Ptr.blk ≠ w'.j.map Ptr.blk ∧ w.p.map Ptr.blk ≠ w'.p.map Ptr.blk) ∧
          (∀ w ∈ ws, 0 < w.sz → o.jarr = none) := by
        rcases R.alt with ⟨rj, rv, ws', P⟩ | ⟨ws', L⟩
        · have hww : ws' = ws := by rw [← P.rows.getD, hr.getD]
          subst hww
          have hzero : ∀ w ∈ ws', ¬ 0 < w.sz := by
            intro w hw h0
            have hH := P.S.ha
            simp only [ha0, Mem.Holds] at hH
            obtain ⟨i, hi, rfl⟩ := List.getElem_of_mem hw
            have hc : i < v.cs.length := by rw [P.S.lc]; exact hi
            have hv : i < v.vs.length := by rw [P.S.lv]; exact hi
            have e := P.S.win i hi hc hv
            have : v.vs[i] = [] := by
              have := List.flatten_eq_nil_iff.mp hH.1 v.vs[i] (List.getElem_mem hv)
              exact this
            rw [this] at e
            simp at e
            omega
          refine ⟨fun w hw h0 => absurd h0 (hzero w hw), ?_, fun w hw h0 => absurd h0 (hzero w hw)⟩
          rw [List.pairwise_iff_getElem]
          intro i k hi hk _ h0
          exact absurd h0 (hzero _ (List.getElem_mem hi))
        · have hww : ws' = ws := by rw [← L.P.rows.getD, hr.getD]
          subst hww
          refine ⟨?_, ?_, fun _ _ _ => L.P.j0⟩
          · intro w hw h0
            obtain ⟨i, hi, rfl⟩ := List.getElem_of_mem hw
            obtain ⟨e1, e2, e3⟩ := L.P.win i hi (by rw [L.P.lc]; exact hi) (by rw [L.P.lv]; exact hi)
            obtain ⟨jb, ab, f1, f2, f3, f4⟩ := e3 (by omega)
            exact ⟨jb, ab, _, _, f1, f2, f3, f4⟩
          · rw [List.pairwise_iff_getElem]
            intro i k hi hk hik h0 h0'
            exact L.P.inj i k hi hk h0 h0' (by omega)
      obtain ⟨l1, l2, l3⟩ := hlive
      obtain ⟨h', ws', g1, g2, g3, g4, g5, g6, g7⟩ := freeRows_spec ws l1 l2
      have htake : ws.take o.n = ws := List.take_of_length_le (by rw [hr.1])
      have hdrop : ws.drop o.n = [] := List.drop_of_length_le (by rw [hr.1])
      have := fin h' { o with rows := some ws' } ⟨rfl, ha0, by
        unfold RowsLen; rw [if_neg hn0]; exact ⟨ws', rfl, by rw [g2, hr.1]⟩⟩
      refine ⟨h', _, by simp only [deallocate, hal, if_false, hrows, htake, g1, hdrop, List.append_nil], g3, g4, g5, ?_, ?_, this.1,
        this.2.1, this.2.2.1, this.2.2.2, rfl⟩
      · intro c hc
        apply g6
        intro w hw h0 he
        exact hc ⟨l3 w hw h0, .inr ⟨w, by rw [hrows]; exact hw, h0, he⟩⟩
      · intro c hc
        apply g7
        intro w hw h0 he
        exact hc (.inr ⟨w, by rw [hrows]; exact hw, h0, he⟩)

/-! ### Copying -/

/-- The two halves of the row copy. -/
def copyMem {α : Type} (M : Mem α) : List (Option Ptr × Option Ptr × Nat) → Res (Mem α)
  | [] => .ok M
  | (d, s, k) :: l => do
    let v ← M.read s k
    let M ← M.write d v
    copyMem M l

theorem copyRows_split (dw : List Win) : ∀ (sw : List Win) {h : Heap B} {as : Mem B} {js : Mem Nat},
    copyMem h.as (List.zipWith (fun d s => (d.p, s.p, d.sz)) dw sw) = .ok as →
    copyMem h.js (List.zipWith (fun d s => (d.j, s.j, d.sz)) dw sw) = .ok js →
    copyRows h dw sw = .ok { h with as := as, js := js } := by
  induction dw with
  | nil =>
    intro sw h as js ha hj
    simp [copyMem] at ha hj
    subst ha; subst hj
    rfl
  | cons d dw ih =>
    intro sw h as js ha hj
    cases sw with
    | nil =>
      simp [copyMem] at ha hj
      subst ha; subst hj
      rfl
    | cons s sw =>
      simp only [List.zipWith_cons_cons, copyMem] at ha hj
      obtain ⟨v, a1, ha⟩ := Res.bind_eq_ok.mp ha
      obtain ⟨A, a2, ha⟩ := Res.bind_eq_ok.mp ha
      obtain ⟨c, j1, hj⟩ := Res.bind_eq_ok.mp hj
      obtain ⟨J, j2, hj⟩ := Res.bind_eq_ok.mp hj
      simp only [copyRows, a1, a2, j1, j2, Res.ok_bind]
      exact ih sw (h := { h with as := A, js := J }) ha hj

theorem write_read {α : Type} {M : Mem α} {p : Option Ptr} {k : Nat} {l : List α} (h : M.read p k = .ok l) : M.write p l = .ok M := by
  unfold Mem.read at h
  split at h
  · simp at h; subst h; simp [Mem.write]
  · cases p with
    | none => cases h
    | some p =>
      simp only at h
      split at h
      · rename_i bl hb
        split at h
        · rename_i h0 hle
          simp at h
          subst h
          unfold Mem.write
          have hlen : ((bl.drop p.off).take k).length = k := by simp; omega
          have hne : (bl.drop p.off).take k ≠ [] := by
            intro hc
            rw [hc] at hlen
            simp at hlen; omega
          rw [if_neg hne]
          simp only [hb, hlen, if_pos hle]
          have : bl.take p.off ++ (bl.drop p.off).take k ++ bl.drop (p.off + k) = bl := by
            rw [List.append_assoc, ← List.drop_drop, List.take_append_drop, List.take_append_drop]
          rw [this]
          congr 1
          apply List.ext_getElem? 
          intro t
          by_cases ht : p.blk = t
          · subst ht; rw [List.getElem?_set_self (lt_of_get hb), hb]
          · rw [List.getElem?_set_ne ht]
        · cases h
      · cases h

/-- Copying places onto themselves changes nothing. -/
theorem copyMem_same {α : Type} (M : Mem α) (l : List (Option Ptr × Option Ptr × Nat))
    (h : ∀ e ∈ l, (0 < e.2.2 → e.1 = e.2.1) ∧ ∃ v, M.read e.2.1 e.2.2 = .ok v) : copyMem M l = .ok M := by
  induction l with
  | nil => rfl
  | cons e l ih =>
    obtain ⟨d, s, k⟩ := e
    obtain ⟨h1, v, h2⟩ := h _ (List.mem_cons_self)
    dsimp only at h1 h2
    have hw : M.write d v = .ok M := by
      by_cases h0 : 0 < k
      · rw [h1 h0]; exact write_read h2
      · have : k = 0 := by omega
        subst this
        simp [Mem.read] at h2
        subst h2
        simp [Mem.write]
    simp only [copyMem]
    rw [h2, Res.ok_bind, hw, Res.ok_bind]
    exact ih fun e he => h e (by simp [he])

/-- Copying into another block. -/
theorem copyMem_fresh {α : Type} (b : Nat) (l : List (Option Ptr × Option Ptr × Nat)) : ∀ (M : Mem α) (xs : List (List α))
    (pre A : List α), xs.length = l.length →
    (∀ i (h : i < l.length) (h2 : i < xs.length), xs[i].length = l[i].2.2 ∧ M.read l[i].2.1 l[i].2.2 = .ok xs[i] ∧
      (0 < l[i].2.2 → l[i].1 = some ⟨b, pre.length + Mem.segOff xs i⟩ ∧ l[i].2.1.map Ptr.blk ≠ some b)) →
    M[b]? = some (some (pre ++ A)) → xs.flatten.length ≤ A.length →
    copyMem M l = .ok (M.set b (some (pre ++ xs.flatten ++ A.drop xs.flatten.length))) := by
  induction l with
  | nil =>
    intro M xs pre A hl _ hb _
    have : xs = [] := List.length_eq_zero_iff.mp hl
    subst this
    simp only [copyMem, List.flatten_nil, List.length_nil, List.drop_zero, List.append_nil]
    congr 1
    apply List.ext_getElem?
    intro t
    by_cases ht : b = t
    · subst ht; rw [List.getElem?_set_self (lt_of_get hb), hb]
    · rw [List.getElem?_set_ne ht]
  | cons e l ih =>
    intro M xs pre A hl h hb hle
    obtain ⟨d, s, k⟩ := e
    cases xs with
    | nil => simp at hl
    | cons x xs =>
      obtain ⟨e1, e2, e3⟩ := h 0 (by simp) (by simp)
      simp only [List.getElem_cons_zero] at e1 e2 e3
      rw [List.flatten_cons, List.length_append] at hle
      have hw : M.write d x = .ok (M.set b (some (pre ++ x ++ A.drop x.length))) := by
        by_cases h0 : 0 < k
        · rw [(e3 h0).1]
          have hne : x ≠ [] := by intro hc; rw [hc] at e1; simp at e1; omega
          unfold Mem.write
          rw [if_neg hne]
          simp only [hb, Mem.segOff, List.take_zero, List.flatten_nil, List.length_nil, Nat.add_zero]
          have hpl : pre.length + x.length ≤ (pre ++ A).length := by rw [List.length_append]; omega
          refine (if_pos hpl).trans ?_
          rw [List.take_left, ← List.drop_drop, List.drop_left]
        · have hx : x = [] := List.length_eq_zero_iff.mp (by omega)
          subst hx
          simp only [Mem.write, if_true, List.append_nil, List.length_nil, List.drop_zero]
          congr 1
          apply List.ext_getElem?
          intro t
          by_cases ht : b = t
          · subst ht; rw [List.getElem?_set_self (lt_of_get hb), hb]
          · rw [List.getElem?_set_ne ht]
      simp only [copyMem, e2, Res.ok_bind, hw]
      have := ih (M.set b (some (pre ++ x ++ A.drop x.length))) xs (pre ++ x) (A.drop x.length) (by simpa using hl) (by
        intro i h1 h2
        obtain ⟨f1, f2, f3⟩ := h (i + 1) (by simpa using h1) (by simpa using h2)
        simp only [List.getElem_cons_succ] at f1 f2 f3
        refine ⟨f1, ?_, ?_⟩
        · by_cases h0 : 0 < l[i].2.2
          · rw [← f2]
            have hne := (f3 h0).2
            unfold Mem.read
            rw [if_neg (by omega), if_neg (by omega)]
            cases hp : l[i].2.1 with
            | none => rfl
            | some p =>
              rw [hp] at hne
              simp only
              rw [List.getElem?_set_ne (by intro hc; exact hne (by rw [hc]; rfl))]
          · have : l[i].2.2 = 0 := by omega
            rw [this] at f1 ⊢
            rw [List.length_eq_zero_iff.mp f1]
            exact Mem.read_zero _ _
        · intro h0
          obtain ⟨g1, g2⟩ := f3 h0
          refine ⟨?_, g2⟩
          rw [g1, segOff_cons, List.length_append, Nat.add_assoc])
        (by rw [List.getElem?_set_self (lt_of_get hb)]) (by rw [List.length_drop]; omega)
      rw [this]
      congr 1
      rw [List.set_set, List.drop_drop]
      simp [List.append_assoc]

end BcrsWorld
end Istl
