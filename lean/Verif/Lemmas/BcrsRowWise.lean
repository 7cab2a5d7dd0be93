import Verif.Lemmas.BcrsRep

/-! Helper lemmas about the row-wise build mode. -/

namespace Istl
namespace Bcrs
variable {B : Type}

/-! ### The pattern set -/

theorem insert_pat (c : CIter) (j : Nat) (h : c.pat.Pairwise (· < ·)) :
    (c.insert j).pat.Pairwise (· < ·) ∧ ∀ x, x ∈ (c.insert j).pat ↔ x = j ∨ x ∈ c.pat := by
  unfold CIter.insert
  simp only
  have hge := dropWhile_ge j c.pat h
  have hs : (c.pat.dropWhile (· < j)).Pairwise (· < ·) := h.sublist (List.dropWhile_sublist _)
  have hsplit := List.takeWhile_append_dropWhile (p := fun x => decide (x < j)) (l := c.pat)
  generalize hD : c.pat.dropWhile (· < j) = D at *
  generalize hT : c.pat.takeWhile (· < j) = T at *
  have hT2 : ∀ x ∈ T, x < j := by
    intro x hx
    rw [← hT] at hx
    simpa using List.mem_takeWhile_imp hx
  have hE : (D.dropWhile (· == j)).Pairwise (· < ·) ∧ (∀ x ∈ D.dropWhile (· == j), j < x) ∧
      ∀ x, x ∈ D ↔ (x = j ∧ j ∈ D) ∨ x ∈ D.dropWhile (· == j) := by
    cases D with
    | nil => simp
    | cons d D =>
      rw [List.pairwise_cons] at hs
      by_cases hd : d = j
      · subst hd
        have hnext : (D.dropWhile (· == d)) = D := by
          cases D with
          | nil => rfl
          | cons e D =>
            have := hs.1 e (by simp)
            rw [List.dropWhile_cons_of_neg]
            simp; omega
        rw [List.dropWhile_cons_of_pos (by simp), hnext]
        refine ⟨hs.2, hs.1, ?_⟩
        intro x
        simp
      · rw [List.dropWhile_cons_of_neg (by simpa using hd)]
        have hd2 : j < d := by
          have := hge d (by simp); omega
        refine ⟨List.pairwise_cons.mpr hs, ?_, ?_⟩
        · intro x hx
          rcases List.mem_cons.mp hx with rfl | hx
          · exact hd2
          · have := hs.1 x hx; omega
        · intro x
          constructor
          · intro hx; exact Or.inr hx
          · rintro (⟨rfl, hx⟩ | hx) <;> exact hx
  obtain ⟨h1, h2, h3⟩ := hE
  refine ⟨?_, ?_⟩
  · rw [List.pairwise_append]
    have hTp : T.Pairwise (· < ·) := by rw [← hT]; exact h.sublist (List.takeWhile_sublist _)
    refine ⟨hTp, List.pairwise_cons.mpr ⟨h2, h1⟩, ?_⟩
    intro a ha b hb
    have := hT2 a ha
    rcases List.mem_cons.mp hb with rfl | hb
    · exact this
    · have := h2 b hb; omega
  · intro x
    rw [← hsplit]
    simp only [List.mem_append, List.mem_cons, h3 x]
    tauto

/-- the user inserts columns -/
def insertAll (c : CIter) (cols : List Nat) : CIter := cols.foldl CIter.insert c

theorem insertAll_pat (c : CIter) (cols : List Nat) (h : c.pat.Pairwise (· < ·)) :
    (insertAll c cols).pat.Pairwise (· < ·) ∧ (∀ x, x ∈ (insertAll c cols).pat ↔ x ∈ cols ∨ x ∈ c.pat) ∧
    (insertAll c cols).i = c.i ∧ (insertAll c cols).nnz = c.nnz ∧ (insertAll c cols).cur = c.cur := by
  induction cols generalizing c with
  | nil => exact ⟨h, by simp [insertAll], rfl, rfl, rfl⟩
  | cons a t ih =>
    obtain ⟨h1, h2⟩ := insert_pat c a h
    obtain ⟨a1, a2, a3, a4, a5⟩ := ih (c.insert a) h1
    refine ⟨a1, ?_, a3, a4, a5⟩
    intro x
    have := a2 x
    simp only [insertAll, List.foldl_cons] at this ⊢
    rw [this, h2 x]
    simp only [List.mem_cons]
    tauto

theorem insertAll_sort (c : CIter) (cols : List Nat) (h : c.pat = []) : (insertAll c cols).pat = cols.toFinset.sort := by
  obtain ⟨h1, h2, -⟩ := insertAll_pat c cols (by rw [h]; exact List.Pairwise.nil)
  apply asc_eq_sort _ _ h1
  intro x
  rw [h2 x, h]
  simp

/-! ### One announced array -/

/-- State during row-wise building with an announced number `N > 0` of entries. -/
structure RW1 (s : St B) (c : CIter) (n m N b : Nat) (pats : List (List Nat)) (rest : List Nat) (ws : List Win) : Prop where
  hn : s.o.n = n
  hm : s.o.m = m
  hnnz : s.o.nnz = N
  halloc : s.o.alloc = N
  rows : RowsAre s.o ws
  ha : s.o.a = none
  hj : s.o.jarr = some b
  hi : c.i = pats.length
  hlen : pats.length ≤ ws.length
  hcn : c.nnz = pats.flatten.length
  hcur : c.cur = some ⟨b, pats.flatten.length⟩
  hN : pats.flatten.length + rest.length = N
  holds : s.h.js.Holds (some b) pats rest
  wins : ∀ i (h : i < pats.length) (h2 : i < ws.length), ws[i].sz = pats[i].length ∧
    (0 < pats[i].length → ws[i].j = some ⟨b, Mem.segOff pats i⟩)

theorem segOff_append_left {α : Type} (xs : List (List α)) (y : List α) (i : Nat) (h : i ≤ xs.length) :
    Mem.segOff (xs ++ [y]) i = Mem.segOff xs i := by
  unfold Mem.segOff
  rw [List.take_append_of_le_length h]

theorem segOff_length {α : Type} (xs : List (List α)) : Mem.segOff xs xs.length = xs.flatten.length := by
  simp [Mem.segOff]

/-- append a segment -/
theorem holds_push {α : Type} (M : Mem α) (b : Nat) (segs : List (List α)) (rest : List α) (H : M.Holds (some b) segs rest)
    (xs : List α) (hx : xs.length ≤ rest.length) :
    ∃ M', M.write (some ⟨b, segs.flatten.length⟩) xs = .ok M' ∧ M'.Holds (some b) (segs ++ [xs]) (rest.drop xs.length) ∧
      M'.length = M.length ∧ (∀ c, c ≠ b → M'[c]? = M[c]?) := by
  have H1 : M.Holds (some b) (segs ++ [rest.take xs.length]) (rest.drop xs.length) := by
    unfold Mem.Holds at H ⊢
    simp only at H ⊢
    rw [H]
    simp
  have hi : segs.length < (segs ++ [rest.take xs.length]).length := by simp
  have hget : (segs ++ [rest.take xs.length])[segs.length] = rest.take xs.length := by simp
  obtain ⟨M', h1, h2, h3, h4⟩ := H1.write hi (p := some ⟨b, segs.flatten.length⟩) (by
    intro _
    simp [segOff_append_left, segOff_length]) (xs := xs) (by rw [hget]; simp; omega)
  refine ⟨M', h1, ?_, h3, ?_⟩
  · have : (segs ++ [rest.take xs.length]).set segs.length xs = segs ++ [xs] := by
      rw [List.set_append_right _ _ (le_refl _)]
      simp
    rw [this] at h2
    exact h2
  · intro c hc
    exact h4 c (by simp; exact fun h => hc h.symm)

theorem next_RW1 {s : St B} {c : CIter} {n m N b : Nat} {pats : List (List Nat)} {rest : List Nat} {ws : List Win}
    (H : RW1 s c n m N b pats rest ws) (hready : s.o.ready = .building) (hN : 0 < N) (hlt : pats.length < n) :
    (N < pats.flatten.length + c.pat.length → c.next s = .throw .bcrsMatrixError s) ∧
    (pats.flatten.length + c.pat.length ≤ N →
      ∃ js ws' c', RW1 { h := { s.h with js := js }, o := { s.o with rows := some ws' } } c' n m N b (pats ++ [c.pat])
          (rest.drop c.pat.length) ws' ∧ c'.pat = [] ∧ (∀ q, q ≠ b → js[q]? = s.h.js[q]?) ∧ js.length = s.h.js.length ∧
        c.next s = (do c.finish (c.nnz + c.pat.length); pure c' : BC B CIter)
          { h := { s.h with js := js }, o := { s.o with rows := some ws' } }) := by
  have hwl : ws.length = n := by rw [H.rows.1, H.hn]
  have hiw : c.i < ws.length := by rw [H.hi]; omega
  have hn0 : s.o.n ≠ 0 := by rw [H.hn]; omega
  have hnz : 0 < s.o.nnz := by rw [H.hnnz]; exact hN
  have hnn := H.hnnz
  have hcn := H.hcn
  constructor
  · intro hbad
    have hsz : 0 < c.pat.length := by
      have := H.hN; omega
    unfold CIter.next
    rw [Cmd.bind_ok (Cmd.get_apply s)]
    simp only [hready, ne_eq, not_true, if_false]
    rw [Cmd.bind_throw (e := .bcrsMatrixError) (s' := s)]
    simp only [CIter.place, hsz, if_true, hnz, hnn, hN, hcn, hbad]
  · intro hok
    have hroom : c.pat.length ≤ rest.length := by have := H.hN; omega
    obtain ⟨js, hw, hHold, hjl, hfr⟩ := holds_push s.h.js b pats rest H.holds c.pat hroom
    by_cases hsz : 0 < c.pat.length
    · set w : Win := ⟨c.pat.length, none, c.cur⟩ with hwdef
      refine ⟨js, ws.set c.i w, CIter.mk (c.i + 1) (c.nnz + c.pat.length) [] (some ⟨b, pats.flatten.length + c.pat.length⟩), ?_, rfl, hfr, hjl, ?_⟩
      · constructor
        · exact H.hn
        · exact H.hm
        · exact H.hnnz
        · exact H.halloc
        · refine ⟨by rw [List.length_set]; exact H.rows.1, by simp [hn0]⟩
        · exact H.ha
        · exact H.hj
        · simp [H.hi]
        · simp only [List.length_append, List.length_singleton, List.length_set]; omega
        · simp [H.hcn]
        · simp
        · have := H.hN
          rw [List.flatten_append, List.length_append, List.length_drop]
          simp only [List.flatten_cons, List.flatten_nil, List.append_nil]
          omega
        · exact hHold
        · intro i h h2
          rw [List.length_append, List.length_singleton] at h
          rw [List.length_set] at h2
          rw [segOff_append_left _ _ _ (by omega)]
          by_cases hic : i = pats.length
          · subst hic
            have : c.i = pats.length := H.hi
            simp only [this, List.getElem_set_self, List.getElem_concat_length]
            refine ⟨rfl, fun _ => ?_⟩
            simp [w, H.hcur, segOff_length]
          · have hlt' : i < pats.length := by omega
            have hne : c.i ≠ i := by rw [H.hi]; omega
            rw [List.getElem_set_ne hne, List.getElem_append_left hlt']
            exact H.wins i hlt' h2
      · have hplace : c.place (c.nnz + c.pat.length) s =
            .ok (some ⟨b, pats.flatten.length + c.pat.length⟩) { s with o := { s.o with rows := some (ws.set c.i w) } } := by
          unfold CIter.place
          simp only [hsz, if_true, hnz]
          rw [if_neg (by rw [H.hnnz, H.hcn]; omega), Cmd.bind_ok (setRow_ok H.rows hiw w)]
          simp [H.hcur]
        unfold CIter.next
        rw [Cmd.bind_ok (Cmd.get_apply s)]
        rw [if_neg (by simp [hready])]
        rw [Cmd.bind_ok hplace]
        have hR2 : RowsAre ({ s.o with rows := some (ws.set c.i w) } : Obj B) (ws.set c.i w) :=
          ⟨by rw [List.length_set]; exact H.rows.1, by simp [hn0]⟩
        have hrow := row_ok (s := { s with o := { s.o with rows := some (ws.set c.i w) } }) hR2 (i := c.i)
          (by simpa using hiw)
        rw [Cmd.bind_ok hrow, Cmd.bind_ok (Cmd.get_apply _)]
        simp only [List.getElem_set_self, w]
        rw [show s.h.js.write c.cur c.pat = .ok js by rw [H.hcur]; exact hw, Cmd.bind_ok (Cmd.lift_ok _ _), Cmd.bind_ok (Cmd.modify_apply _ _)]
    · have hpe : c.pat = [] := List.length_eq_zero_iff.mp (by omega)
      refine ⟨s.h.js, ws.set c.i ⟨0, none, none⟩, CIter.mk (c.i + 1) (c.nnz + c.pat.length) [] c.cur, ?_,
        rfl, fun _ _ => rfl, rfl, ?_⟩
      · constructor
        · exact H.hn
        · exact H.hm
        · exact H.hnnz
        · exact H.halloc
        · refine ⟨by rw [List.length_set]; exact H.rows.1, by simp [hn0]⟩
        · exact H.ha
        · exact H.hj
        · simp [H.hi]
        · simp only [List.length_append, List.length_singleton, List.length_set]; omega
        · simp [H.hcn]
        · simp [hpe, H.hcur]
        · have := H.hN; simp [hpe]; simpa using this
        · have := H.holds
          unfold Mem.Holds at this ⊢
          simpa [hpe] using this
        · intro i h h2
          rw [List.length_append, List.length_singleton] at h
          rw [List.length_set] at h2
          rw [segOff_append_left _ _ _ (by omega)]
          by_cases hic : i = pats.length
          · subst hic
            have : c.i = pats.length := H.hi
            simp only [this, List.getElem_set_self, List.getElem_concat_length]
            simp [hpe]
          · have hlt' : i < pats.length := by omega
            have hne : c.i ≠ i := by rw [H.hi]; omega
            rw [List.getElem_set_ne hne, List.getElem_append_left hlt']
            exact H.wins i hlt' h2
      · have hplace : c.place (c.nnz + c.pat.length) s =
            .ok c.cur { s with o := { s.o with rows := some (ws.set c.i ⟨0, none, none⟩) } } := by
          unfold CIter.place
          simp only [hsz, if_false]
          rw [Cmd.bind_ok (setRow_ok H.rows hiw _)]
          simp
        unfold CIter.next
        rw [Cmd.bind_ok (Cmd.get_apply s)]
        rw [if_neg (by simp [hready])]
        rw [Cmd.bind_ok hplace]
        have hR2 : RowsAre ({ s.o with rows := some (ws.set c.i ⟨0, none, none⟩) } : Obj B) (ws.set c.i ⟨0, none, none⟩) :=
          ⟨by rw [List.length_set]; exact H.rows.1, by simp [hn0]⟩
        have hrow := row_ok (s := { s with o := { s.o with rows := some (ws.set c.i ⟨0, none, none⟩) } }) hR2 (i := c.i)
          (by simpa using hiw)
        rw [Cmd.bind_ok hrow, Cmd.bind_ok (Cmd.get_apply _)]
        simp only [List.getElem_set_self]
        have hwr : s.h.js.write none c.pat = .ok s.h.js := by simp [Mem.write, hpe]
        rw [hwr, Cmd.bind_ok (Cmd.lift_ok _ _), Cmd.bind_ok (Cmd.modify_apply _ _)]


theorem map_dflt_flatten (pats : List (List Nat)) (d : B) :
    (pats.map fun c => c.map fun _ => d).flatten = List.replicate pats.flatten.length d := by
  have : (pats.map fun c => c.map fun _ => d) = (pats.map List.length).map fun k => List.replicate k d := by
    rw [List.map_map]
    apply List.map_congr_left
    intro c _
    simp
  rw [this, flatten_replicate', List.length_flatten]

theorem segOff_map_dflt (pats : List (List Nat)) (d : B) (i : Nat) :
    Mem.segOff (pats.map fun c => c.map fun _ => d) i = Mem.segOff pats i := by
  unfold Mem.segOff
  rw [← List.map_take, map_dflt_flatten]
  simp

/-- After the last row: the data array is created and the matrix is built. -/
theorem finish_RW1 {s : St B} {c c' : CIter} {n m N b : Nat} {pats : List (List Nat)} {rest : List Nat} {ws : List Win}
    (H : RW1 s c' n m N b pats rest ws) (hN : 0 < N) (hl : pats.length = n) (hi : c.i + 1 = n) (k : Nat) :
    ∃ s' rv ws', c.finish k s = .ok () s' ∧ s'.o.nnz = k ∧ s'.o.n = n ∧ s'.o.m = m ∧
      Single s'.h s'.o pats rest pats (pats.map fun c => c.map fun _ => s.h.dflt) rv ws' ∧ s'.h.js = s.h.js ∧
      s'.o.a = some s.h.as.length ∧ (∃ M, s'.h.as = s.h.as ++ M) ∧ s'.o.alloc = N ∧ s'.o.jarr = some b ∧ s'.h.dflt = s.h.dflt := by
  have hz : 0 < s.o.alloc := by rw [H.halloc]; exact hN
  have hnz : 0 < s.o.nnz := by rw [H.hnnz]; exact hN
  have hwl : ws.length = n := by rw [H.rows.1, H.hn]
  set vs := pats.map fun c => c.map fun _ => s.h.dflt with hvs
  have hvl : vs.length = ws.length := by simp [vs, hl, hwl]
  have hvsz : ∀ k (h1 : k < ws.length) (h2 : k < vs.length), vs[k].length = ws[k].sz := by
    intro k h1 h2
    have := (H.wins k (by omega) h1).1
    rw [this]; simp [vs]
  refine ⟨{ h := { s.h with as := s.h.as ++ [some (List.replicate s.o.alloc s.h.dflt)] }, o := { s.o with
      ready := .built, nnz := k, a := some s.h.as.length, rows := s.o.rows.map (dataPointers (some s.h.as.length) 0) } },
      List.replicate (s.o.alloc - pats.flatten.length) s.h.dflt, dataPointers (some s.h.as.length) 0 ws, ?_, rfl, H.hn, H.hm, ?_,
      rfl, rfl, ⟨_, rfl⟩, H.halloc, H.hj, rfl⟩
  · unfold CIter.finish
    rw [if_pos (by rw [H.hn]; exact hi), if_pos hnz]
    simp [setO, Cmd.bind_def, allocateData, H.ha, hz, Mem.alloc]
  · constructor
    · rfl
    · refine ⟨?_, ?_⟩
      · rw [dataPointers_length]; exact H.rows.1
      · simp only [H.rows.2]; split <;> rfl
    · rw [dataPointers_length, hl, hwl]
    · rw [dataPointers_length, hl, hwl]
    · rw [dataPointers_length, hvl]
    · intro i h1 h2; exact ⟨[], by simp⟩
    · intro i h h2 h3
      have h4 : i < ws.length := by simpa [dataPointers_length] using h
      have hd := dataPointers_get (some s.h.as.length) ws vs 0 i h h4 hvl hvsz
      have hw := H.wins i h2 h4
      refine ⟨by simp [vs], by rw [hd.1, hw.1], ?_, ?_⟩
      · intro h0
        rw [hd.2.2 (by rw [hw.1]; exact h0), hw.2 h0, H.hj]
        rfl
      · intro h0
        rw [hd.2.1 (by rw [hw.1]; exact h0)]
        simp
    · simp only [H.hj]; exact H.holds
    · have e1 : s.o.alloc = N := H.halloc
      have e2 := H.hN
      simp only [Mem.Holds, vs, map_dflt_flatten]
      rw [← List.replicate_add]
      have : pats.flatten.length + (s.o.alloc - pats.flatten.length) = s.o.alloc := by omega
      rw [this]
      simp

/-! ### One array pair per row -/

/-- State during row-wise building without announced number of entries. -/
structure RW0 (s : St B) (c : CIter) (n m : Nat) (pats : List (List Nat)) (ws : List Win) : Prop where
  hn : s.o.n = n
  hm : s.o.m = m
  hnnz : s.o.nnz = 0
  halloc : s.o.alloc = 0
  rows : RowsAre s.o ws
  ha : s.o.a = none
  hj : s.o.jarr = none
  hi : c.i = pats.length
  hlen : pats.length ≤ ws.length
  win : ∀ i (h1 : i < ws.length) (h2 : i < pats.length), ws[i].sz = pats[i].length ∧
    (0 < pats[i].length → ∃ jb ab, ws[i].j = some ⟨jb, 0⟩ ∧ ws[i].p = some ⟨ab, 0⟩ ∧ s.h.js[jb]? = some (some pats[i]) ∧
      s.h.as[ab]? = some (some (pats[i].map fun _ => s.h.dflt)))
  inj : ∀ i k (h1 : i < ws.length) (h2 : k < ws.length), i < pats.length → k < pats.length → 0 < ws[i].sz → 0 < ws[k].sz →
    i ≠ k → ws[i].j.map Ptr.blk ≠ ws[k].j.map Ptr.blk ∧ ws[i].p.map Ptr.blk ≠ ws[k].p.map Ptr.blk

theorem lt_of_getElem?_some {α : Type} {M : List α} {b : Nat} {l : α} (h : M[b]? = some l) : b < M.length := by
  by_contra hc
  rw [List.getElem?_eq_none (by omega)] at h
  cases h

/-- memory after the two allocations of one row -/
def placedHeap (s : St B) (c : CIter) : Heap B :=
  { s.h with
    as := s.h.as ++ [some (List.replicate c.pat.length s.h.dflt)]
    js := s.h.js ++ [some (List.replicate c.pat.length s.h.junk)] }

theorem next_RW0 {s : St B} {c : CIter} {n m : Nat} {pats : List (List Nat)} {ws : List Win}
    (H : RW0 s c n m pats ws) (hready : s.o.ready = .building) (hlt : pats.length < n) :
    ∃ js as ws' c', RW0 { h := { s.h with js := s.h.js ++ js, as := s.h.as ++ as }, o := { s.o with rows := some ws' } } c' n m
        (pats ++ [c.pat]) ws' ∧ c'.pat = [] ∧
        c.next s = (do c.finish (c.nnz + c.pat.length); pure c' : BC B CIter)
          { h := { s.h with js := s.h.js ++ js, as := s.h.as ++ as }, o := { s.o with rows := some ws' } } := by
  have hwl : ws.length = n := by rw [H.rows.1, H.hn]
  have hiw : c.i < ws.length := by rw [H.hi]; omega
  have hn0 : s.o.n ≠ 0 := by rw [H.hn]; omega
  have hnz : ¬ 0 < s.o.nnz := by rw [H.hnnz]; omega
  by_cases hsz : 0 < c.pat.length
  · set w : Win := ⟨c.pat.length, some ⟨s.h.as.length, 0⟩, some ⟨s.h.js.length, 0⟩⟩ with hw
    have hR2 : RowsAre ({ s.o with rows := some (ws.set c.i w) } : Obj B) (ws.set c.i w) :=
      ⟨by rw [List.length_set]; exact H.rows.1, by simp [hn0]⟩
    refine ⟨[some c.pat], [some (c.pat.map fun _ => s.h.dflt)], ws.set c.i w,
      CIter.mk (c.i + 1) (c.nnz + c.pat.length) [] c.cur, ?_, rfl, ?_⟩
    · constructor
      · exact H.hn
      · exact H.hm
      · exact H.hnnz
      · exact H.halloc
      · exact hR2
      · exact H.ha
      · exact H.hj
      · simp [H.hi]
      · simp only [List.length_append, List.length_singleton, List.length_set]; omega
      · intro i h1 h2
        rw [List.length_set] at h1
        rw [List.length_append, List.length_singleton] at h2
        by_cases hic : i = pats.length
        · subst hic
          have hci : c.i = pats.length := H.hi
          simp only [hci, List.getElem_set_self, List.getElem_concat_length]
          refine ⟨rfl, fun _ => ⟨s.h.js.length, s.h.as.length, rfl, rfl, by simp, by simp⟩⟩
        · have hlt' : i < pats.length := by omega
          have hne : c.i ≠ i := by rw [H.hi]; omega
          rw [List.getElem_set_ne hne, List.getElem_append_left hlt']
          obtain ⟨e1, e2⟩ := H.win i h1 hlt'
          refine ⟨e1, fun h0 => ?_⟩
          obtain ⟨jb, ab, a1, a2, a3, a4⟩ := e2 h0
          refine ⟨jb, ab, a1, a2, ?_, ?_⟩
          · simp only; rw [List.getElem?_append_left (lt_of_getElem?_some a3)]; exact a3
          · simp only; rw [List.getElem?_append_left (lt_of_getElem?_some a4)]; exact a4
      · have key : ∀ k (h2 : k < ws.length), k < pats.length → 0 < ws[k].sz →
            some s.h.js.length ≠ ws[k].j.map Ptr.blk ∧ some s.h.as.length ≠ ws[k].p.map Ptr.blk := by
          intro k h2 h4 h6
          obtain ⟨e1, e2⟩ := H.win k h2 h4
          obtain ⟨jb, ab, a1, a2, a3, a4⟩ := e2 (by omega)
          have := lt_of_getElem?_some a3
          have := lt_of_getElem?_some a4
          rw [a1, a2]
          simp only [Option.map_some, ne_eq, Option.some.injEq]
          omega
        intro i k h1 h2 h3 h4 h5 h6 hik
        rw [List.length_set] at h1 h2
        rw [List.length_append, List.length_singleton] at h3 h4
        have hci := H.hi
        by_cases hic : c.i = i
        · subst hic
          have hne : c.i ≠ k := hik
          rw [List.getElem_set_ne hne] at h6 ⊢
          simp only [List.getElem_set_self]
          exact key k h2 (by omega) h6
        · by_cases hkc : c.i = k
          · subst hkc
            rw [List.getElem_set_ne hic] at h5 ⊢
            simp only [List.getElem_set_self]
            have := key i h1 (by omega) h5
            exact ⟨this.1.symm, this.2.symm⟩
          · rw [List.getElem_set_ne hic] at h5 ⊢
            rw [List.getElem_set_ne hkc] at h6 ⊢
            exact H.inj i k h1 h2 (by omega) (by omega) h5 h6 hik
    · have hplace : c.place (c.nnz + c.pat.length) s =
          .ok c.cur { h := placedHeap s c, o := { s.o with rows := some (ws.set c.i w) } } := by
        unfold CIter.place
        simp only [hsz, if_true, hnz, if_false, Mem.alloc]
        exact Cmd.bind_ok (setRow_ok (s := { h := placedHeap s c, o := s.o }) H.rows hiw _)
      unfold CIter.next
      rw [Cmd.bind_ok (Cmd.get_apply s)]
      rw [if_neg (by simp [hready])]
      rw [Cmd.bind_ok hplace]
      have hrow := row_ok (s := { h := placedHeap s c, o := { s.o with rows := some (ws.set c.i w) } })
            hR2 (i := c.i) (by simpa using hiw)
      rw [Cmd.bind_ok hrow, Cmd.bind_ok (Cmd.get_apply _)]
      simp only [List.getElem_set_self]
      simp only [placedHeap]
      have hwr := write_block (s.h.js ++ [some (List.replicate c.pat.length s.h.junk)]) s.h.js.length
        (List.replicate c.pat.length s.h.junk) c.pat (by simp) (by simp)
      simp only [w]
      rw [hwr, Cmd.bind_ok (Cmd.lift_ok _ _), Cmd.bind_ok (Cmd.modify_apply _ _)]
      have e1 : (s.h.js ++ [some (List.replicate c.pat.length s.h.junk)]).set s.h.js.length (some c.pat) =
          s.h.js ++ [some c.pat] := by
        rw [List.set_append_right _ _ (le_refl _)]; simp
      have e2 : (c.pat.map fun _ => s.h.dflt) = List.replicate c.pat.length s.h.dflt := by simp
      rw [e1, e2]
  · have hpe : c.pat = [] := List.length_eq_zero_iff.mp (by omega)
    have hR2 : RowsAre ({ s.o with rows := some (ws.set c.i ⟨0, none, none⟩) } : Obj B) (ws.set c.i ⟨0, none, none⟩) :=
      ⟨by rw [List.length_set]; exact H.rows.1, by simp [hn0]⟩
    refine ⟨[], [], ws.set c.i ⟨0, none, none⟩, CIter.mk (c.i + 1) (c.nnz + c.pat.length) [] c.cur, ?_, rfl, ?_⟩
    · simp only [List.append_nil]
      constructor
      · exact H.hn
      · exact H.hm
      · exact H.hnnz
      · exact H.halloc
      · exact hR2
      · exact H.ha
      · exact H.hj
      · simp [H.hi]
      · simp only [List.length_append, List.length_singleton, List.length_set]; omega
      · intro i h1 h2
        rw [List.length_set] at h1
        rw [List.length_append, List.length_singleton] at h2
        by_cases hic : i = pats.length
        · subst hic
          have hci : c.i = pats.length := H.hi
          simp only [hci, List.getElem_set_self, List.getElem_concat_length]
          simp [hpe]
        · have hlt' : i < pats.length := by omega
          have hne : c.i ≠ i := by rw [H.hi]; omega
          rw [List.getElem_set_ne hne, List.getElem_append_left hlt']
          exact H.win i h1 hlt'
      · intro i k h1 h2 h3 h4 h5 h6 hik
        rw [List.length_set] at h1 h2
        rw [List.length_append, List.length_singleton] at h3 h4
        have hci := H.hi
        by_cases hic : c.i = i
        · subst hic
          simp at h5
        · by_cases hkc : c.i = k
          · subst hkc
            simp at h6
          · rw [List.getElem_set_ne hic] at h5 ⊢
            rw [List.getElem_set_ne hkc] at h6 ⊢
            exact H.inj i k h1 h2 (by omega) (by omega) h5 h6 hik
    · have hplace : c.place (c.nnz + c.pat.length) s =
          .ok c.cur { s with o := { s.o with rows := some (ws.set c.i ⟨0, none, none⟩) } } := by
        unfold CIter.place
        simp only [hsz, if_false]
        rw [Cmd.bind_ok (setRow_ok H.rows hiw _)]
        simp
      unfold CIter.next
      rw [Cmd.bind_ok (Cmd.get_apply s)]
      rw [if_neg (by simp [hready])]
      rw [Cmd.bind_ok hplace]
      have hrow := row_ok (s := { s with o := { s.o with rows := some (ws.set c.i ⟨0, none, none⟩) } }) hR2 (i := c.i)
        (by simpa using hiw)
      rw [Cmd.bind_ok hrow, Cmd.bind_ok (Cmd.get_apply _)]
      simp only [List.getElem_set_self]
      have hwr : s.h.js.write none c.pat = .ok s.h.js := by simp [Mem.write, hpe]
      rw [hwr, Cmd.bind_ok (Cmd.lift_ok _ _), Cmd.bind_ok (Cmd.modify_apply _ _)]
      simp

theorem finish_RW0 {s : St B} {c c' : CIter} {n m : Nat} {pats : List (List Nat)} {ws : List Win}
    (H : RW0 s c' n m pats ws) (hl : pats.length = n) (hi : c.i + 1 = n) (k : Nat) :
    c.finish k s = .ok () { s with o := { s.o with ready := .built } } ∧
      PerRow s.h ({ s.o with ready := .built } : Obj B) pats (pats.map fun c => c.map fun _ => s.h.dflt) ws := by
  have hwl : ws.length = n := by rw [H.rows.1, H.hn]
  constructor
  · unfold CIter.finish
    rw [if_pos (by rw [H.hn]; exact hi), if_neg (by rw [H.hnnz]; omega)]
  · constructor
    · rfl
    · exact H.rows
    · rw [hl, hwl]
    · simp [hl, hwl]
    · exact H.halloc
    · exact H.ha
    · exact H.hj
    · intro i h1 h2 h3
      obtain ⟨e1, e2⟩ := H.win i h1 h2
      refine ⟨by simp, e1, fun h0 => ?_⟩
      obtain ⟨jb, ab, a1, a2, a3, a4⟩ := e2 h0
      exact ⟨jb, ab, a1, a2, a3, by simpa using a4⟩
    · intro i k h1 h2 h3 h4 h5
      exact H.inj i k h1 h2 (by omega) (by omega) h3 h4 h5

theorem finish_noop (c : CIter) (k : Nat) (s : St B) (h : c.i + 1 ≠ s.o.n) : c.finish k s = .ok () s := by
  unfold CIter.finish
  rw [if_neg h]

/-- total number of entries of the given rows -/
def distinctTotal (todo : List (List Nat)) : Nat := (todo.map fun cols => cols.toFinset.card).sum

/-- the sorted patterns -/
def sorted (todo : List (List Nat)) : List (List Nat) := todo.map fun cols => cols.toFinset.sort

theorem sorted_length_flatten (todo : List (List Nat)) : (sorted todo).flatten.length = distinctTotal todo := by
  simp [sorted, distinctTotal, List.length_flatten, Function.comp_def]

theorem buildRows_RW1 {n m N b : Nat} (hN : 0 < N) (todo : List (List Nat)) : ∀ {s : St B} {c : CIter} {pats : List (List Nat)}
    {rest : List Nat} {ws : List Win}, RW1 s c n m N b pats rest ws → s.o.ready = .building → c.pat = [] → todo ≠ [] →
    pats.length + todo.length = n →
    (pats.flatten.length + distinctTotal todo ≤ N → ∃ s' rj rv ws', buildRows c todo s = .ok () s' ∧
      s'.o.nnz = pats.flatten.length + distinctTotal todo ∧ s'.o.n = n ∧ s'.o.m = m ∧ s'.h.dflt = s.h.dflt ∧
      Single s'.h s'.o (pats ++ sorted todo) rj (pats ++ sorted todo)
        ((pats ++ sorted todo).map fun c => c.map fun _ => s.h.dflt) rv ws') ∧
    (N < pats.flatten.length + distinctTotal todo → ∃ s', buildRows c todo s = .throw .bcrsMatrixError s') := by
  induction todo with
  | nil => intro s c pats rest ws _ _ _ h; exact absurd rfl h
  | cons cols todo ih =>
    intro s c pats rest ws H hready hpat _ hlen
    rw [List.length_cons] at hlen
    have hins := insertAll_pat c cols (by rw [hpat]; exact List.Pairwise.nil)
    have hsort := insertAll_sort c cols hpat
    set c1 := insertAll c cols with hc1
    have H1 : RW1 s c1 n m N b pats rest ws := by
      obtain ⟨-, -, i1, i2, i3⟩ := hins
      constructor
      · exact H.hn
      · exact H.hm
      · exact H.hnnz
      · exact H.halloc
      · exact H.rows
      · exact H.ha
      · exact H.hj
      · rw [i1]; exact H.hi
      · exact H.hlen
      · rw [i2]; exact H.hcn
      · rw [i3]; exact H.hcur
      · exact H.hN
      · exact H.holds
      · exact H.wins
    obtain ⟨hthrow, hok⟩ := next_RW1 H1 hready hN (by omega)
    have hcard : c1.pat.length = cols.toFinset.card := by rw [hsort]; simp
    have hdt : distinctTotal (cols :: todo) = c1.pat.length + distinctTotal todo := by simp [distinctTotal, hcard]
    have hci : c1.i = pats.length := H1.hi
    rw [hdt]
    by_cases hroom : pats.flatten.length + c1.pat.length ≤ N
    · obtain ⟨js, ws', c', H2, hp', -, -, hnext⟩ := hok hroom
      set s2 : St B := { h := { s.h with js := js }, o := { s.o with rows := some ws' } } with hs2
      have hfl : (pats ++ [c1.pat]).flatten.length = pats.flatten.length + c1.pat.length := by
        rw [List.flatten_append, List.length_append]; simp
      have happ : pats ++ sorted (cols :: todo) = (pats ++ [c1.pat]) ++ sorted todo := by
        simp [sorted, hsort]
      by_cases ht : todo = []
      · subst ht
        refine ⟨fun _ => ?_, fun hc => ?_⟩
        · obtain ⟨s', rv, ws'', f1, f2, f3, f4, f5, -, -, -, -, -, f6⟩ := finish_RW1 (c := c1) H2 hN
            (by rw [List.length_append, List.length_singleton]; simpa using hlen) (by rw [hci]; simpa using hlen) (c1.nnz + c1.pat.length)
          refine ⟨s', rest.drop c1.pat.length, rv, ws'', ?_, ?_, f3, f4, f6, ?_⟩
          · show buildRows c [cols] s = _
            unfold buildRows buildRows
            rw [show (cols.foldl CIter.insert c) = c1 from rfl, Cmd.bind_def, hnext, Cmd.bind_ok f1]
            rfl
          · rw [f2, H1.hcn]; simp [distinctTotal]
          · rw [happ]
            simpa [sorted] using f5
        · exfalso
          simp [distinctTotal] at hc
          simp at hroom
          omega
      · have hnoop : c1.finish (c1.nnz + c1.pat.length) s2 = .ok () s2 := by
          apply finish_noop
          simp only [s2, H.hn, hci]
          have : 0 < todo.length := List.length_pos_iff.mpr ht
          omega
        have hstep : buildRows c (cols :: todo) s = buildRows c' todo s2 := by
          conv_lhs => unfold buildRows
          rw [show (cols.foldl CIter.insert c) = c1 from rfl, Cmd.bind_def, hnext, Cmd.bind_ok hnoop]
          rfl
        obtain ⟨a, b'⟩ := ih H2 hready hp' ht (by rw [List.length_append, List.length_singleton]; omega)
        rw [hfl, add_assoc] at a b'
        rw [hstep, happ]
        exact ⟨a, b'⟩
    · refine ⟨fun h => by omega, fun _ => ?_⟩
      refine ⟨s, ?_⟩
      conv_lhs => unfold buildRows
      rw [show (cols.foldl CIter.insert c) = c1 from rfl, Cmd.bind_throw (hthrow (by omega))]

theorem buildRows_RW0 {n m : Nat} (todo : List (List Nat)) : ∀ {s : St B} {c : CIter} {pats : List (List Nat)}
    {ws : List Win}, RW0 s c n m pats ws → s.o.ready = .building → c.pat = [] → todo ≠ [] →
    pats.length + todo.length = n →
    ∃ s' ws', buildRows c todo s = .ok () s' ∧ s'.o.nnz = 0 ∧ s'.o.n = n ∧ s'.o.m = m ∧ s'.h.dflt = s.h.dflt ∧
      PerRow s'.h s'.o (pats ++ sorted todo) ((pats ++ sorted todo).map fun c => c.map fun _ => s.h.dflt) ws' := by
  induction todo with
  | nil => intro s c pats ws _ _ _ h; exact absurd rfl h
  | cons cols todo ih =>
    intro s c pats ws H hready hpat _ hlen
    rw [List.length_cons] at hlen
    have hins := insertAll_pat c cols (by rw [hpat]; exact List.Pairwise.nil)
    have hsort := insertAll_sort c cols hpat
    set c1 := insertAll c cols with hc1
    have H1 : RW0 s c1 n m pats ws := by
      obtain ⟨-, -, i1, i2, i3⟩ := hins
      constructor
      · exact H.hn
      · exact H.hm
      · exact H.hnnz
      · exact H.halloc
      · exact H.rows
      · exact H.ha
      · exact H.hj
      · rw [i1]; exact H.hi
      · exact H.hlen
      · exact H.win
      · exact H.inj
    obtain ⟨js, as, ws', c', H2, hp', hnext⟩ := next_RW0 H1 hready (by omega)
    have hci : c1.i = pats.length := H1.hi
    set s2 : St B := { h := { s.h with js := s.h.js ++ js, as := s.h.as ++ as }, o := { s.o with rows := some ws' } } with hs2
    have happ : pats ++ sorted (cols :: todo) = (pats ++ [c1.pat]) ++ sorted todo := by
      simp [sorted, hsort]
    by_cases ht : todo = []
    · subst ht
      obtain ⟨f1, f2⟩ := finish_RW0 (c := c1) H2
        (by rw [List.length_append, List.length_singleton]; simpa using hlen) (by rw [hci]; simpa using hlen) (c1.nnz + c1.pat.length)
      refine ⟨{ s2 with o := { s2.o with ready := .built } }, ws', ?_, H2.hnnz, H2.hn, H2.hm, ?_, ?_⟩
      · unfold buildRows buildRows
        rw [show (cols.foldl CIter.insert c) = c1 from rfl, Cmd.bind_def, hnext, Cmd.bind_ok f1]
        rfl
      · rfl
      · rw [happ]
        simpa [sorted] using f2
    · have hnoop : c1.finish (c1.nnz + c1.pat.length) s2 = .ok () s2 := by
        apply finish_noop
        simp only [s2, H.hn, hci]
        have : 0 < todo.length := List.length_pos_iff.mpr ht
        omega
      have hstep : buildRows c (cols :: todo) s = buildRows c' todo s2 := by
        conv_lhs => unfold buildRows
        rw [show (cols.foldl CIter.insert c) = c1 from rfl, Cmd.bind_def, hnext, Cmd.bind_ok hnoop]
        rfl
      have a := ih H2 hready hp' ht (by rw [List.length_append, List.length_singleton]; omega)
      rw [hstep, happ]
      exact a

end Bcrs
end Istl
