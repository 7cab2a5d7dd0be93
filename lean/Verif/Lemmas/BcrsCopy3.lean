import Verif.Lemmas.BcrsCopy2

/-! The copy itself. -/

namespace Istl
namespace BcrsWorld
open Bcrs
variable {B : Type}

theorem packWins_len (ab jb : Option Nat) (szs : List Nat) : ∀ off, (packWins ab jb off szs).length = szs.length := by
  induction szs with
  | nil => intro _; rfl
  | cons z zs ih => intro off; simp [packWins, ih]

theorem packWins_get (ab jb : Option Nat) (szs : List Nat) : ∀ (off i : Nat) (h : i < (packWins ab jb off szs).length) (h' : i < szs.length),
    (packWins ab jb off szs)[i].sz = szs[i] ∧
    (0 < szs[i] → (packWins ab jb off szs)[i].p = ab.map (fun b => ⟨b, off + (szs.take i).sum⟩) ∧
      (packWins ab jb off szs)[i].j = jb.map (fun b => ⟨b, off + (szs.take i).sum⟩)) := by
  induction szs with
  | nil => intro off i h h'; simp at h'
  | cons z zs ih =>
    intro off i h h'
    cases i with
    | zero =>
      simp only [packWins, List.getElem_cons_zero, List.take_zero, List.sum_nil, Nat.add_zero]
      by_cases h0 : 0 < z
      · rw [if_pos h0]; exact ⟨rfl, fun _ => ⟨rfl, rfl⟩⟩
      · rw [if_neg h0]; exact ⟨by dsimp only; omega, fun h => absurd h h0⟩
    | succ i =>
      simp only [packWins, List.getElem_cons_succ, List.take_succ_cons, List.sum_cons]
      have := ih (off + z) i (by simpa [packWins] using h) (by simpa using h')
      rw [Nat.add_assoc] at this
      exact this

theorem segOff_sum {α : Type} (segs : List (List α)) (i : Nat) : Mem.segOff segs i = ((segs.map List.length).take i).sum := by
  unfold Mem.segOff
  rw [List.length_flatten, List.map_take]

/-- What `allocate` does when the data array is allocated. -/
theorem allocate_spec (h : Heap B) (o : Obj B) (n m k : Nat) (r : Bool) (ha : o.a = none)
    (hr : if r then o.rows = none else RowsLen o n) :
    ∃ h1 o1, allocate n m k r true ⟨h, o⟩ = .ok () ⟨h1, o1⟩ ∧ o1.n = n ∧ o1.m = m ∧ o1.nnz = k ∧ o1.alloc = k ∧ RowsLen o1 n ∧
      o1.a = (if 0 < k then some h.as.length else none) ∧
      h1.as = (if 0 < k then h.as ++ [some (List.replicate k h.dflt)] else h.as) ∧
      o1.jarr = (if 0 < k then some (o.jarr.getD h.js.length) else none) ∧
      h1.js = (if 0 < k ∧ o.jarr = none then h.js ++ [some (List.replicate k h.junk)] else h.js) ∧ SameC h h1 := by
  -- rows
  obtain ⟨rows, e1, e2⟩ : ∃ rows, (if r = true then allocateRows n else pure () : BC B Unit)
      ⟨h, { o with n := n, m := m, nnz := k, alloc := k }⟩ = .ok () ⟨h, { o with n := n, m := m, nnz := k, alloc := k, rows := rows }⟩ ∧
      (if n = 0 then rows = none else ∃ ws, rows = some ws ∧ ws.length = n) := by
    cases r with
    | false =>
      refine ⟨o.rows, rfl, ?_⟩
      simpa [RowsLen] using hr
    | true =>
      simp only [if_true] at hr
      by_cases h0 : n = 0
      · refine ⟨none, ?_, by simp [h0]⟩
        simp [allocateRows, h0]
      · refine ⟨some (List.replicate n ⟨0, none, none⟩), ?_, ?_⟩
        · have : 0 < n := by omega
          simp [allocateRows, this, hr]
        · rw [if_neg h0]; exact ⟨_, rfl, by simp⟩
  have e3 : (allocateData : BC B Unit) ⟨h, { o with n := n, m := m, nnz := k, alloc := k, rows := rows }⟩ =
      .ok () ⟨{ h with as := if 0 < k then h.as ++ [some (List.replicate k h.dflt)] else h.as },
        { o with n := n, m := m, nnz := k, alloc := k, rows := rows, a := if 0 < k then some h.as.length else none }⟩ := by
    unfold allocateData
    simp only [ha, Option.isSome_none, Bool.false_eq_true, if_false]
    by_cases h0 : 0 < k
    · simp [h0, Mem.alloc]
    · simp [h0]
  have e4 : ∀ (as : Mem B) (a : Option Nat), (allocateIdx : BC B Unit) ⟨{ h with as := as }, { o with n := n, m := m, nnz := k, alloc := k, rows := rows, a := a }⟩ =
      .ok () ⟨{ h with as := as, js := if 0 < k ∧ o.jarr = none then h.js ++ [some (List.replicate k h.junk)] else h.js },
        { o with n := n, m := m, nnz := k, alloc := k, rows := rows, a := a, jarr := if 0 < k then some (o.jarr.getD h.js.length) else none }⟩ := by
    intro as a
    unfold allocateIdx
    by_cases h0 : 0 < k
    · cases hj : o.jarr with
      | none => simp [h0, hj, Mem.alloc]
      | some b => simp only [h0, hj, if_true, Option.getD_some]; rfl
    · simp [h0]
  refine ⟨{ h with as := if 0 < k then h.as ++ [some (List.replicate k h.dflt)] else h.as, js := if 0 < k ∧ o.jarr = none then h.js ++ [some (List.replicate k h.junk)] else h.js },
      ⟨o.mode, .building, n, m, k, k, rows, if 0 < k then some h.as.length else none,
        if 0 < k then some (o.jarr.getD h.js.length) else none, o.avg, o.cbs, o.ov⟩, ?_, rfl, rfl, rfl, rfl, ?_, rfl, rfl, rfl, rfl, ⟨rfl, rfl, rfl⟩⟩
  · unfold allocate
    simp only [if_true]
    rw [Cmd.bind_ok (show (setO _ : BC B Unit) ⟨h, o⟩ = .ok () ⟨h, { o with n := n, m := m, nnz := k, alloc := k }⟩ from rfl)]
    have e1' : (if r = true then (allocateRows n : BC B Unit) else pure PUnit.unit) ⟨h, { o with n := n, m := m, nnz := k, alloc := k }⟩ = _ := e1
    cases r with
    | false =>
      simp only [Bool.false_eq_true, if_false] at e1' ⊢
      have hs := (Out.ok.inj e1').2
      rw [hs, Cmd.bind_ok e3, Cmd.bind_ok (e4 _ _)]
      rfl
    | true =>
      simp only [if_true] at e1' ⊢
      rw [Cmd.bind_ok e1', Cmd.bind_ok e3, Cmd.bind_ok (e4 _ _)]
      rfl
  · exact e2

/-- The memory after the copy, one half. -/
theorem copy_half {α : Type} (M : Mem α) (k : Nat) (l : List (Option Ptr × Option Ptr × Nat)) (x : α) (xs : List (List α))
    (hl : xs.length = l.length)
    (hr : ∀ i (h : i < l.length) (h2 : i < xs.length), xs[i].length = l[i].2.2 ∧ M.read l[i].2.1 l[i].2.2 = .ok xs[i])
    (hk : xs.flatten.length ≤ k)
    (hd : 0 < k → ∀ i (h : i < l.length), 0 < l[i].2.2 → l[i].1 = some ⟨M.length, Mem.segOff xs i⟩) :
    ∃ M', copyMem (if 0 < k then M ++ [some (List.replicate k x)] else M) l = .ok M' ∧
      M'.Holds (if 0 < k then some M.length else none) xs (List.replicate (k - xs.flatten.length) x) ∧
      (∀ (c : Nat), c < M.length → M'[c]? = M[c]?) ∧ M.length ≤ M'.length := by
  by_cases h0 : 0 < k
  · simp only [h0, if_true]
    have hrd : ∀ (p : Option Ptr) (q : Nat) (y : List α), M.read p q = .ok y → 0 < q →
        (M ++ [some (List.replicate k x)]).read p q = .ok y ∧ p.map Ptr.blk ≠ some M.length := by
      intro p q y hy hq
      unfold Mem.read at hy ⊢
      rw [if_neg (by omega)] at hy ⊢
      cases p with
      | none => cases hy
      | some p =>
        simp only at hy ⊢
        have hlt : p.blk < M.length := by
          by_contra hge
          rw [List.getElem?_eq_none (by omega)] at hy
          cases hy
        rw [List.getElem?_append_left hlt]
        exact ⟨hy, by simp; omega⟩
    have := copyMem_fresh M.length l (M ++ [some (List.replicate k x)]) xs [] (List.replicate k x) hl (by
      intro i g1 g2
      obtain ⟨e1, e2⟩ := hr i g1 g2
      refine ⟨e1, ?_, ?_⟩
      · by_cases hz : 0 < l[i].2.2
        · exact (hrd _ _ _ e2 hz).1
        · have : l[i].2.2 = 0 := by omega
          rw [this] at e1 ⊢
          rw [List.length_eq_zero_iff.mp e1]
          exact Mem.read_zero _ _
      · intro hz
        exact ⟨by simpa using hd h0 i g1 hz, (hrd _ _ _ e2 hz).2⟩)
      (by simp) (by simpa using hk)
    refine ⟨_, this, ?_, ?_, ?_⟩
    · simp [Mem.Holds]
    · intro c hc
      rw [List.getElem?_set_ne (by omega), List.getElem?_append_left hc]
    · simp
  · simp only [h0, if_false]
    have hk0 : k = 0 := by omega
    subst hk0
    have hf : xs.flatten = [] := List.length_eq_zero_iff.mp (by omega)
    refine ⟨M, ?_, ?_, fun _ _ => rfl, le_rfl⟩
    · apply copyMem_same
      intro e he
      obtain ⟨i, hi, rfl⟩ := List.getElem_of_mem he
      obtain ⟨e1, e2⟩ := hr i hi (by omega)
      refine ⟨?_, _, e2⟩
      intro hz
      have : xs[i] = [] := List.flatten_eq_nil_iff.mp hf _ (List.getElem_mem (by omega))
      rw [this] at e1
      simp at e1
      omega
    · exact ⟨hf, by simp⟩

/-- What the copy construction and the assignment have in common. -/
theorem Rep.copy {h : Heap B} {src : Obj B} {v : Val B} (R : Rep h src v) (o : Obj B) (k : Nat) (r : Bool) (hk : v.total ≤ k)
    (ha : o.a = none) (hj : o.jarr = src.jarr) (hr : if r then o.rows = none else RowsLen o src.n) :
    ∃ h' o', (do allocate src.n src.m k r true; copyWindowStructure src : BC B Unit) ⟨h, o⟩ = .ok () ⟨h', o'⟩ ∧
      Rep h' o' { v with lazy := false, counted := true } ∧ SameC h h' ∧
      (∀ (c : Nat), c < h.as.length → h'.as[c]? = h.as[c]?) ∧ (∀ (c : Nat), c < h.js.length → h'.js[c]? = h.js[c]?) ∧
      h.as.length ≤ h'.as.length ∧ h.js.length ≤ h'.js.length ∧
      (∀ b, OwnA o' b → h.as.length ≤ b) ∧ (∀ b, UseJ o' b → src.jarr = some b ∨ h.js.length ≤ b) ∧ (∀ b, ¬ OwnJ o' b) ∧
      (o'.ready = .built) := by
  obtain ⟨h1, o1, e1, en, em, ek, eal, erl, ea, eas, ej, ejs, esc⟩ := allocate_spec h o src.n src.m k r ha hr
  obtain ⟨sw, sr, sl, swin⟩ := R.wins
  have hcl : v.cs.length = sw.length := by simp [Val.cs, sl]
  have hvl : v.vs.length = sw.length := by simp [Val.vs, sl]
  have hcsz : v.cs.map List.length = sw.map Win.sz := by
    apply List.ext_getElem (by simp [hcl])
    intro i g1 g2
    simp only [List.getElem_map, Val.cs, List.length_map]
    exact (swin i (by simpa using g2) (by simp at g2; omega)).1.symm
  have hvsz : v.vs.map List.length = sw.map Win.sz := by
    apply List.ext_getElem (by simp [hvl])
    intro i g1 g2
    simp only [List.getElem_map, Val.vs, List.length_map]
    exact (swin i (by simpa using g2) (by simp at g2; omega)).1.symm
  set dw := packWins o1.a o1.jarr 0 (sw.map Win.sz) with hdw
  have hdl : dw.length = sw.length := by rw [hdw, packWins_len]; simp
  have hdg : ∀ i (g1 : i < dw.length) (g2 : i < sw.length), dw[i].sz = sw[i].sz ∧
      (0 < sw[i].sz → dw[i].p = o1.a.map (fun b => ⟨b, Mem.segOff v.vs i⟩) ∧ dw[i].j = o1.jarr.map (fun b => ⟨b, Mem.segOff v.cs i⟩)) := by
    intro i g1 g2
    have := packWins_get o1.a o1.jarr (sw.map Win.sz) 0 i g1 (by simpa using g2)
    simp only [List.getElem_map, Nat.zero_add] at this
    rw [segOff_sum, segOff_sum, hvsz, hcsz]
    exact this
  -- data
  obtain ⟨as', a1, a2, a3, a4⟩ := copy_half h.as k (List.zipWith (fun d s => (d.p, s.p, d.sz)) dw sw) h.dflt v.vs
    (by simp [hdl, hvl]) (by
      intro i g1 g2
      have g : i < sw.length := by omega
      obtain ⟨w1, w2, w3⟩ := swin i g (by omega)
      obtain ⟨d1, d2⟩ := hdg i (by omega) g
      simp only [List.getElem_zipWith, d1]
      rw [w3]
      simp [Val.vs, w1])
    (by rw [Val.vs_len]; exact hk) (by
      intro h0 i g1 hz
      have g : i < sw.length := by simp [hdl] at g1; omega
      obtain ⟨d1, d2⟩ := hdg i (by omega) g
      simp only [List.getElem_zipWith, d1] at hz ⊢
      rw [(d2 hz).1, ea, if_pos h0]
      rfl)
  rw [← eas] at a1
  rw [← ea] at a2
  -- indices
  have hjr : ∀ i (g1 : i < (List.zipWith (fun (d s : Win) => (d.j, s.j, d.sz)) dw sw).length) (g2 : i < v.cs.length),
      v.cs[i].length = (List.zipWith (fun (d s : Win) => (d.j, s.j, d.sz)) dw sw)[i].2.2 ∧
      h.js.read (List.zipWith (fun (d s : Win) => (d.j, s.j, d.sz)) dw sw)[i].2.1 (List.zipWith (fun (d s : Win) => (d.j, s.j, d.sz)) dw sw)[i].2.2 = .ok v.cs[i] := by
    intro i g1 g2
    have g : i < sw.length := by omega
    obtain ⟨w1, w2, w3⟩ := swin i g (by omega)
    obtain ⟨d1, d2⟩ := hdg i (by omega) g
    simp only [List.getElem_zipWith, d1]
    rw [w2]
    simp [Val.cs, w1]
  obtain ⟨js', rj, j1, j2, j3, j4⟩ : ∃ js' rj, copyMem h1.js (List.zipWith (fun d s => (d.j, s.j, d.sz)) dw sw) = .ok js' ∧
      js'.Holds o1.jarr v.cs rj ∧ (∀ (c : Nat), c < h.js.length → js'[c]? = h.js[c]?) ∧ h.js.length ≤ js'.length := by
    cases hsj : src.jarr with
    | none =>
      obtain ⟨js', j1, j2, j3, j4⟩ := copy_half h.js k (List.zipWith (fun d s => (d.j, s.j, d.sz)) dw sw) h.junk v.cs
        (by simp [hdl, hcl]) hjr (by rw [Val.cs_len]; exact hk) (by
          intro h0 i g1 hz
          have g : i < sw.length := by simp [hdl] at g1; omega
          obtain ⟨d1, d2⟩ := hdg i (by omega) g
          simp only [List.getElem_zipWith, d1] at hz ⊢
          rw [(d2 hz).2, ej, if_pos h0, hj, hsj]
          rfl)
      refine ⟨js', List.replicate (k - v.cs.flatten.length) h.junk, ?_, ?_, j3, j4⟩
      · rw [ejs, hj, hsj]; simpa using j1
      · rw [ej, hj, hsj]; exact j2
    | some jb =>
      have hP : ∃ rj rv ws, Packed h src v rj rv ws := by
        rcases R.alt with P | ⟨ws, L⟩
        · exact P
        · rw [L.P.j0] at hsj; cases hsj
      obtain ⟨rj, rv, ws', P⟩ := hP
      have hww : ws' = sw := by rw [← P.rows.getD, sr.getD]
      subst hww
      have hjs : h1.js = h.js := by rw [ejs, hj, hsj]; simp
      have hH := P.S.hj
      simp only [hsj] at hH
      refine ⟨h.js, if 0 < k then rj else [], ?_, ?_, fun _ _ => rfl, le_rfl⟩
      · rw [hjs]
        apply copyMem_same
        intro e he
        obtain ⟨i, hi, rfl⟩ := List.getElem_of_mem he
        obtain ⟨r1, r2⟩ := hjr i hi (by simp [hdl] at hi; omega)
        refine ⟨?_, _, r2⟩
        intro hz
        have g : i < ws'.length := by simp [hdl] at hi; omega
        obtain ⟨d1, d2⟩ := hdg i (by omega) g
        simp only [List.getElem_zipWith, d1] at hz ⊢
        have hc : i < v.cs.length := by omega
        obtain ⟨p1, p2, p3, p4⟩ := P.S.win i g hc (by omega)
        have h0 : 0 < k := by
          have : 0 < v.total := by
            rw [← Val.cs_len, List.length_flatten]
            refine lt_of_lt_of_le (show 0 < (v.cs[i]).length by omega) ?_
            apply List.le_sum_of_mem
            exact List.mem_map_of_mem (List.getElem_mem hc)
          omega
        rw [(d2 hz).2, p3 (by omega), ej, if_pos h0, hj]
        show _ = Option.map _ src.jarr
        rw [hsj]
        rfl
      · rw [ej, hj, hsj]
        by_cases h0 : 0 < k
        · simp only [h0, if_true]; exact hH
        · simp only [h0, if_false, Mem.Holds, and_true]
          apply List.length_eq_zero_iff.mp
          rw [Val.cs_len]; omega
  have hcopy := copyRows_split dw sw (h := h1) a1 j1
  have hnn : sw.length = o1.n := by rw [sr.1, en]
  -- the object
  obtain ⟨rows, erows, hrows⟩ : ∃ rows, copyContents src ⟨h1, o1⟩ = .ok () ⟨{ h1 with as := as', js := js' }, { o1 with rows := rows }⟩ ∧
      rows = (if o1.n = 0 then none else some dw) := by
    by_cases h0 : o1.n = 0
    · unfold RowsLen at erl
      rw [if_pos (by omega)] at erl
      refine ⟨o1.rows, ?_, by rw [if_pos h0, erl]⟩
      have hs0 : sw = [] := List.length_eq_zero_iff.mp (by omega)
      have hd0 : dw = [] := List.length_eq_zero_iff.mp (by rw [hdl, hs0]; rfl)
      rw [hd0] at a1 j1
      simp only [List.zipWith_nil_left, copyMem, Res.ok.injEq] at a1 j1
      unfold copyContents
      rw [if_pos h0]
      subst a1; subst j1
      rfl
    · refine ⟨some dw, ?_, by rw [if_neg h0]⟩
      unfold RowsLen at erl
      rw [if_neg (by omega)] at erl
      obtain ⟨w0, e0, l0⟩ := erl
      have hs : src.rows = some sw := by rw [sr.2, if_neg (by omega)]
      unfold copyContents
      simp only [h0, if_false, e0, hs]
      have ht : sw.take o1.n = sw := List.take_of_length_le (by omega)
      rw [ht]
      simp only [← hdw, hcopy]
  refine ⟨{ h1 with as := as', js := js' }, { o1 with rows := rows, mode := .rowWise, ready := .built }, ?_, ?_, esc, a3, j3, a4, j4, ?_⟩
  · rw [Cmd.bind_ok e1]
    unfold copyWindowStructure
    rw [Cmd.bind_ok erows]
    rfl
  · have P' : Packed { h1 with as := as', js := js' } { o1 with rows := rows, mode := .rowWise, ready := .built }
        { v with lazy := false, counted := true } rj (List.replicate (k - v.vs.flatten.length) h.dflt) dw := by
      refine ⟨⟨rfl, ⟨by dsimp only; omega, hrows⟩, by rw [hdl]; exact hcl, by rw [hdl]; exact hcl, by rw [hdl]; exact hvl, fun i g1 g2 => ⟨[], by simp⟩, ?_, j2, a2⟩, .inr rfl, ?_, ?_, ?_⟩
      · intro i g1 g2 g3
        have g : i < sw.length := by omega
        obtain ⟨w1, w2, w3⟩ := swin i g (by omega)
        obtain ⟨d1, d2⟩ := hdg i g1 g
        have c1 : (Val.cs { v with lazy := false, counted := true })[i].length = sw[i].sz := by simp [Val.cs, w1]
        have c2 : (Val.vs { v with lazy := false, counted := true })[i].length = sw[i].sz := by simp [Val.vs, w1]
        refine ⟨by rw [c1, c2], by rw [d1, c1], ?_, ?_⟩
        · intro hz; exact (d2 (by omega)).2
        · intro hz; exact (d2 (by omega)).1
      · show v.total ≤ o1.nnz; omega
      · show o1.nnz ≤ v.total + _
        rw [List.length_replicate, Val.vs_len]; omega
      · show o1.alloc = 0 → o1.a = none
        intro h0; rw [ea, if_neg (by omega)]
    refine ⟨?_, ?_, R.asc, .inl ⟨_, _, _, P'⟩⟩
    · show o1.n = v.n; rw [en, R.hn]
    · show o1.m = v.m; rw [em, R.hm]
  · have P' : Packed { h1 with as := as', js := js' } { o1 with rows := rows, mode := .rowWise, ready := .built }
        { v with lazy := false, counted := true } rj (List.replicate (k - v.vs.flatten.length) h.dflt) dw := by
      refine ⟨⟨rfl, ⟨by dsimp only; omega, hrows⟩, by rw [hdl]; exact hcl, by rw [hdl]; exact hcl, by rw [hdl]; exact hvl, fun i g1 g2 => ⟨[], by simp⟩, ?_, j2, a2⟩, .inr rfl, ?_, ?_, ?_⟩
      · intro i g1 g2 g3
        have g : i < sw.length := by omega
        obtain ⟨w1, w2, w3⟩ := swin i g (by omega)
        obtain ⟨d1, d2⟩ := hdg i g1 g
        have c1 : (Val.cs { v with lazy := false, counted := true })[i].length = sw[i].sz := by simp [Val.cs, w1]
        have c2 : (Val.vs { v with lazy := false, counted := true })[i].length = sw[i].sz := by simp [Val.vs, w1]
        refine ⟨by rw [c1, c2], by rw [d1, c1], ?_, ?_⟩
        · intro hz; exact (d2 (by omega)).2
        · intro hz; exact (d2 (by omega)).1
      · show v.total ≤ o1.nnz; omega
      · show o1.nnz ≤ v.total + _
        rw [List.length_replicate, Val.vs_len]; omega
      · show o1.alloc = 0 → o1.a = none
        intro h0; rw [ea, if_neg (by omega)]
    refine ⟨?_, ?_, ?_, rfl⟩
    · intro b hb
      have := P'.ownA hb
      have h2 : o1.a = some b := this
      rw [ea] at h2
      split at h2
      · simp at h2; omega
      · cases h2
    · intro b hb
      have h2 : o1.jarr = some b := P'.useJ hb
      rw [ej] at h2
      split at h2
      · rw [hj] at h2
        cases hs : src.jarr with
        | none => rw [hs] at h2; simp at h2; right; omega
        | some c => rw [hs] at h2; simp at h2; left; rw [h2]
      · cases h2
    · intro b hb
      exact P'.ownJ hb

end BcrsWorld
end Istl
