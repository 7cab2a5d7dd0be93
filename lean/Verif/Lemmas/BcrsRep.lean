import Verif.Lemmas.BcrsRandom2

/-! Representation invariants of a built matrix: all rows in one array pair, or one array pair per row. -/

namespace Istl
namespace Bcrs
variable {B : Type}

/-- Built matrix whose rows lie one after the other in one index array (rows possibly followed by unused places: `segs`) and
one data array. -/
structure Single (h : Heap B) (o : Obj B) (segs : List (List Nat)) (rj : List Nat) (cs : List (List Nat)) (vs : List (List B))
    (rv : List B) (ws : List Win) : Prop where
  ready : o.ready = .built
  rows : RowsAre o ws
  ls : segs.length = ws.length
  lc : cs.length = ws.length
  lv : vs.length = ws.length
  seg : ∀ i (h1 : i < segs.length) (h2 : i < cs.length), ∃ pad, segs[i] = cs[i] ++ pad
  win : ∀ i (h : i < ws.length) (h2 : i < cs.length) (h3 : i < vs.length), vs[i].length = cs[i].length ∧
    ws[i].sz = cs[i].length ∧
    (0 < cs[i].length → ws[i].j = o.jarr.map fun b => ⟨b, Mem.segOff segs i⟩) ∧
    (0 < cs[i].length → ws[i].p = o.a.map fun b => ⟨b, Mem.segOff vs i⟩)
  hj : h.js.Holds o.jarr segs rj
  ha : h.as.Holds o.a vs rv

/-- Built matrix with one index array and one data array per non-empty row. -/
structure PerRow (h : Heap B) (o : Obj B) (cs : List (List Nat)) (vs : List (List B)) (ws : List Win) : Prop where
  ready : o.ready = .built
  rows : RowsAre o ws
  lc : cs.length = ws.length
  lv : vs.length = ws.length
  alloc0 : o.alloc = 0
  a0 : o.a = none
  j0 : o.jarr = none
  win : ∀ i (h1 : i < ws.length) (h2 : i < cs.length) (h3 : i < vs.length), vs[i].length = cs[i].length ∧
    ws[i].sz = cs[i].length ∧
    (0 < cs[i].length → ∃ jb ab, ws[i].j = some ⟨jb, 0⟩ ∧ ws[i].p = some ⟨ab, 0⟩ ∧ h.js[jb]? = some (some cs[i]) ∧
      h.as[ab]? = some (some vs[i]))
  inj : ∀ i k (h1 : i < ws.length) (h2 : k < ws.length), 0 < ws[i].sz → 0 < ws[k].sz → i ≠ k →
    ws[i].j.map Ptr.blk ≠ ws[k].j.map Ptr.blk ∧ ws[i].p.map Ptr.blk ≠ ws[k].p.map Ptr.blk

theorem read_full {α : Type} (M : Mem α) (b : Nat) (l : List α) (h : M[b]? = some (some l)) :
    M.read (some ⟨b, 0⟩) l.length = .ok l := by
  unfold Mem.read
  split
  · rename_i h0; simp [List.length_eq_zero_iff.mp h0]
  · simp [h]

theorem Single.readj {h : Heap B} {o : Obj B} {segs rj cs vs rv ws} (H : Single h o segs rj cs vs rv ws) {i : Nat}
    (h1 : i < ws.length) (h2 : i < cs.length) : h.js.read ws[i].j ws[i].sz = .ok cs[i] := by
  have h3 : i < vs.length := by rw [H.lv]; exact h1
  have h4 : i < segs.length := by rw [H.ls]; exact h1
  obtain ⟨e1, e2, e3, e4⟩ := H.win i h1 h2 h3
  obtain ⟨pad, hp⟩ := H.seg i h4 h2
  rw [e2]
  by_cases h0 : 0 < cs[i].length
  · have := H.hj.read h4 (p := ws[i].j) (fun _ => e3 h0)
    have := Mem.read_take _ _ _ _ this cs[i].length (by rw [hp]; simp)
    rw [this, hp, List.take_left]
  · have : cs[i] = [] := List.length_eq_zero_iff.mp (by omega)
    rw [this]; exact Mem.read_zero _ _

theorem Single.reada {h : Heap B} {o : Obj B} {segs rj cs vs rv ws} (H : Single h o segs rj cs vs rv ws) {i : Nat}
    (h1 : i < ws.length) (h3 : i < vs.length) : h.as.read ws[i].p ws[i].sz = .ok vs[i] := by
  have h2 : i < cs.length := by rw [H.lc]; exact h1
  obtain ⟨e1, e2, e3, e4⟩ := H.win i h1 h2 h3
  rw [e2, ← e1]
  exact H.ha.read h3 (fun h0 => e4 (by omega))

theorem PerRow.readj {h : Heap B} {o : Obj B} {cs vs ws} (H : PerRow h o cs vs ws) {i : Nat}
    (h1 : i < ws.length) (h2 : i < cs.length) : h.js.read ws[i].j ws[i].sz = .ok cs[i] := by
  have h3 : i < vs.length := by rw [H.lv]; exact h1
  obtain ⟨e1, e2, e3⟩ := H.win i h1 h2 h3
  rw [e2]
  by_cases h0 : 0 < cs[i].length
  · obtain ⟨jb, ab, hj, hp, hm, hm2⟩ := e3 h0
    rw [hj]; exact read_full _ _ _ hm
  · have : cs[i] = [] := List.length_eq_zero_iff.mp (by omega)
    rw [this]; exact Mem.read_zero _ _

theorem PerRow.reada {h : Heap B} {o : Obj B} {cs vs ws} (H : PerRow h o cs vs ws) {i : Nat}
    (h1 : i < ws.length) (h3 : i < vs.length) : h.as.read ws[i].p ws[i].sz = .ok vs[i] := by
  have h2 : i < cs.length := by rw [H.lc]; exact h1
  obtain ⟨e1, e2, e3⟩ := H.win i h1 h2 h3
  rw [e2, ← e1]
  by_cases h0 : 0 < cs[i].length
  · obtain ⟨jb, ab, hj, hp, hm, hm2⟩ := e3 h0
    rw [hp]; exact read_full _ _ _ hm2
  · have : vs[i] = [] := List.length_eq_zero_iff.mp (by omega)
    rw [this]; exact Mem.read_zero _ _

theorem view_of_reads {h : Heap B} {o : Obj B} {cs : List (List Nat)} {vs : List (List B)} {ws : List Win}
    (rows : RowsAre o ws) (lc : cs.length = ws.length) (lv : vs.length = ws.length)
    (hj : ∀ i (h1 : i < ws.length) (h2 : i < cs.length), h.js.read ws[i].j ws[i].sz = .ok cs[i])
    (ha : ∀ i (h1 : i < ws.length) (h3 : i < vs.length), h.as.read ws[i].p ws[i].sz = .ok vs[i]) :
    view ⟨h, o⟩ = .ok (o.n, o.m, List.zipWith List.zip cs vs) := by
  unfold view
  simp only
  rw [rows.getD, List.take_of_length_le (by rw [← rows.1]), rowsView_ok h ws cs vs lc lv hj ha, Res.ok_bind]

theorem Single.view {h : Heap B} {o : Obj B} {segs rj cs vs rv ws} (H : Single h o segs rj cs vs rv ws) :
    view ⟨h, o⟩ = .ok (o.n, o.m, List.zipWith List.zip cs vs) :=
  view_of_reads H.rows H.lc H.lv (fun _ h1 h2 => H.readj h1 h2) (fun _ h1 h3 => H.reada h1 h3)

theorem PerRow.view {h : Heap B} {o : Obj B} {cs vs ws} (H : PerRow h o cs vs ws) :
    view ⟨h, o⟩ = .ok (o.n, o.m, List.zipWith List.zip cs vs) :=
  view_of_reads H.rows H.lc H.lv (fun _ h1 h2 => H.readj h1 h2) (fun _ h1 h3 => H.reada h1 h3)

end Bcrs
end Istl
