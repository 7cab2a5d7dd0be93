import Verif.Lemmas.BcrsCopy3
import Verif.Props.C02
import Verif.Props.C04
import Verif.Props.C05

/-! The building programs, with the memory they produce. -/

namespace Istl
namespace BcrsWorld
open Bcrs
variable {B : Type}

theorem Good.ownA {h : Heap B} {s : St B} (G : Good h s) {b : Nat} (hb : OwnA s.o b) : h.as.length ≤ b := by
  rcases hb with hb | ⟨w, hw, h0, hp⟩
  · exact G.pa b hb
  · cases hr : s.o.rows with
    | none => rw [hr] at hw; simp at hw
    | some ws =>
      rw [hr] at hw
      cases hq : w.p with
      | none => rw [hq] at hp; simp at hp
      | some q =>
        rw [hq] at hp; simp at hp; subst hp
        exact (G.pw ws hr w hw).2 q hq

theorem Good.useJ {h : Heap B} {s : St B} (G : Good h s) {b : Nat} (hb : UseJ s.o b) : h.js.length ≤ b := by
  rcases hb with hb | ⟨w, hw, h0, hp⟩
  · exact G.pj b hb
  · cases hr : s.o.rows with
    | none => rw [hr] at hw; simp at hw
    | some ws =>
      rw [hr] at hw
      cases hq : w.j with
      | none => rw [hq] at hp; simp at hp
      | some q =>
        rw [hq] at hp; simp at hp; subst hp
        exact (G.pw ws hr w hw).1 q hq

theorem val_cs_const (n m : Nat) (cs : List (List Nat)) (z : B) (l c : Bool) :
    Val.cs ⟨n, m, cs.map fun c => c.map fun j => (j, z), l, c⟩ = cs ∧
    Val.vs ⟨n, m, cs.map fun c => c.map fun j => (j, z), l, c⟩ = cs.map (fun c => c.map fun _ => z) := by
  simp only [Val.cs, Val.vs, List.map_map, Function.comp_def, List.map_id', and_self]

theorem asc_sort (S : Finset Nat) (f : Nat → B) : Row.Asc (S.sort.map fun j => (j, f j)) := by
  unfold Row.Asc
  rw [List.map_map]
  show (List.map (fun j => j) _).Pairwise _
  rw [List.map_id']
  exact (Finset.sortedLT_sort S).pairwise

theorem make_random (h : Heap B) (o : Obj B) (n m nnz : Nat) (sizes : List SizeOp) (calls : List (Nat × Nat))
    (hs : ∀ op ∈ sizes, op.row < n) (hc : ∀ c ∈ calls, c.1 < n)
    (hsuf : nnz = 0 ∨ ∑ i ∈ Finset.range n, announced sizes i ≤ nnz)
    (hex : ∀ i, i < n → (collected m (announced sizes) calls i).card = announced sizes i) :
    ∃ s, randomProgram n m nnz sizes calls ⟨h, o⟩ = .ok () s ∧ Good h s ∧ Rep s.h s.o ⟨n, m,
      (List.range n).map fun i => (collected m (announced sizes) calls i).sort.map fun j => (j, h.dflt), false, false⟩ := by
  obtain ⟨s1, h1, H1⟩ := ctor_sizing h o n m nnz
  obtain ⟨s2, ws, h2, H2, hsz⟩ := runSizes_sizing H1 (by simp) sizes hs
  obtain ⟨s3, h3, H3⟩ := endrowsizes_pat H2 (announced sizes) hsz hsuf
  obtain ⟨s4, h4, -, -, H4⟩ := runAdds_pat H3 calls hc
  have G1 := ctor_good h o h1
  have G2 := keeps_runSizes sizes h s1 G1 _ _ h2
  have G3 := endrowsizes_good G2 H2.ha h3
  have G4 := keeps_runAdds calls h s3 G3 _ _ h4
  obtain ⟨segs, rest, ws4, H5, hlen, hS⟩ := H4
  set S := collected m (announced sizes) calls with hSdef
  set cols := (List.range n).map fun i => (S i).sort with hcols
  have hcl : cols.length = n := by simp [cols]
  have hcg : ∀ i (h : i < cols.length), cols[i] = (S i).sort := by intro i h; simp [cols]
  have hsegs : segs = cols := by
    apply List.ext_getElem (by omega)
    intro i g1 g2
    rw [(hS i g1).1, hcg i g2, hex i (by omega)]
    simp
  subst hsegs
  obtain ⟨s5, ws5, h5, hr, hn, hm, hrows, eal, ej, hjs, hz, hwl, hw, ⟨rest', hH⟩, -, -, ha0⟩ :=
    endindices_tail H5 cols (fun _ => []) (fun i => rfl) rfl (fun i g1 g2 => by simp)
      (by
        intro c hc x hx
        obtain ⟨i, hi, rfl⟩ := List.getElem_of_mem hc
        rw [hcg i hi] at hx
        exact (hS i (by omega)).2.2 x ((Finset.mem_sort (fun a b => a ≤ b)).mp hx))
  have G5 := keeps_endindices h s4 G4 _ _ h5
  refine ⟨s5, ?_, G5, ?_⟩
  · unfold randomProgram
    rw [Cmd.bind_ok h1, Cmd.bind_ok h2, Cmd.bind_ok h3, Cmd.bind_ok h4, h5]
  · have hd : s4.h.dflt = h.dflt := G4.dflt
    rw [hd] at hH hw
    have hv : ((List.range n).map fun i => (S i).sort.map fun j => (j, h.dflt)) = cols.map fun c => c.map fun j => (j, h.dflt) := by
      simp [cols, List.map_map, Function.comp_def]
    rw [hv]
    obtain ⟨k1, k2⟩ := val_cs_const n m cols h.dflt false false
    set v : Val B := ⟨n, m, cols.map fun c => c.map fun j => (j, h.dflt), false, false⟩ with hvdef
    have htot : v.total = cols.flatten.length := by rw [← Val.cs_len, k1]
    refine ⟨hn, hm, ?_, .inl ⟨rest, rest', ws5, ?_⟩⟩
    · intro r hr'
      rw [hvdef, ← hv] at hr'
      simp only [List.mem_map] at hr'
      obtain ⟨i, -, rfl⟩ := hr'
      exact asc_sort _ _
    · refine ⟨?_, .inr hr, by omega, ?_, G5.al0⟩
      · rw [k1, k2]
        refine ⟨rfl, hrows, by rw [hwl], by rw [hwl], by simp [hwl], fun i g1 g2 => ⟨[], by simp⟩, ?_, ?_, hH⟩
        · intro i g1 g2 g3
          obtain ⟨w1, w2, w3, w4⟩ := hw i g1 g2 g2
          refine ⟨by simp, w1, ?_, ?_⟩
          · intro h0; show _ = Option.map _ s5.o.jarr; rw [ej]; exact w3 h0
          · intro h0; exact w4 h0
        · show Mem.Holds _ s5.o.jarr _ _
          rw [ej, hjs]; exact H5.holds
      · rw [hz, htot]
        cases ha : s5.o.a with
        | none =>
          have := ha0 ha
          have := H5.halloc
          omega
        | some b =>
          obtain ⟨l, l1, l2⟩ := G5.alen b ha
          rw [ha] at hH
          simp only [Mem.Holds] at hH
          rw [hH] at l1
          simp only [Option.some.injEq] at l1
          have e := congrArg List.length l1
          rw [List.length_append, l2, eal, H5.halloc] at e
          have : (cols.map fun c => c.map fun _ => h.dflt).flatten.length = cols.flatten.length := by
            simp [List.length_flatten, List.map_map, Function.comp_def]
          omega

theorem make_rowWise (h : Heap B) (o : Obj B) (n m nnz : Nat) (bm : BuildMode)
    (hbm : bm = .rowWise ∨ bm = .unknown) (todo : List (List Nat)) (hlen : todo.length = n)
    (hsuf : nnz = 0 ∨ 0 < n ∧ (todo.map fun cols => cols.toFinset.card).sum ≤ nnz) :
    ∃ s, rowWiseProgram n m nnz bm todo ⟨h, o⟩ = .ok () s ∧ Good h s ∧ Rep s.h s.o ⟨n, m,
      todo.map fun cols => cols.toFinset.sort.map fun j => (j, h.dflt), decide (nnz = 0), false⟩ := by
  obtain ⟨s1, c, h1, hpat, hn1, hm1, hd, hz, hready, hRW0, hRW1⟩ := rowWise_start h o n m nnz bm hbm
  have hprog : ∀ s2, buildRows c todo s1 = .ok () s2 → rowWiseProgram n m nnz bm todo ⟨h, o⟩ = .ok () s2 := by
    intro s2 h2
    have e : rowWiseProgram n m nnz bm todo ⟨h, o⟩ =
        ((do let c ← (do ctor n m nnz bm; createbegin : BC B CIter); buildRows c todo) : BC B Unit) ⟨h, o⟩ := by
      unfold rowWiseProgram
      simp only [Cmd.bind_def]
      cases ctor n m nnz bm (⟨h, o⟩ : St B) <;> rfl
    rw [e, Cmd.bind_ok h1, h2]
  have hG : Good h s1 ∧ PFresh h.js.length c.cur := by
    obtain ⟨_, s0, h0, hb⟩ := bind_inv h1
    exact createbegin_good (ctor_good h o h0) hb
  have hgood : ∀ s2, buildRows c todo s1 = .ok () s2 → Good h s2 := fun s2 h2 => buildRows_good todo hG.1 hG.2 h2
  have hv : (todo.map fun cols => cols.toFinset.sort.map fun j => (j, h.dflt)) = (sorted todo).map fun c => c.map fun j => (j, h.dflt) := by
    simp [sorted, List.map_map, Function.comp_def]
  have hasc : ∀ r ∈ (todo.map fun cols => cols.toFinset.sort.map fun j => (j, h.dflt)), Row.Asc r := by
    intro r hr
    simp only [List.mem_map] at hr
    obtain ⟨i, -, rfl⟩ := hr
    exact asc_sort _ _
  by_cases hn0 : n = 0
  · subst hn0
    have htodo : todo = [] := List.length_eq_zero_iff.mp hlen
    subst htodo
    obtain ⟨z1, z2, z3⟩ := hz rfl
    have hnnz0 : nnz = 0 := by rcases hsuf with h | h; exact h; exact absurd h.1 (by omega)
    subst hnnz0
    refine ⟨s1, hprog s1 rfl, hG.1, hn1, hm1, by simp, .inr ⟨[], ?_⟩⟩
    have hx : s1.o.alloc = 0 ∧ s1.o.jarr = none := by
      have : ∃ s c, (do ctor 0 m 0 bm; createbegin : BC B CIter) ⟨h, o⟩ = .ok c s ∧ s.o.alloc = 0 ∧ s.o.jarr = none := by
        rcases hbm with rfl | rfl <;>
        simp [ctor, createbegin, allocate, setO, Cmd.bind_def, empty, allocateRows, allocateIdx]
      obtain ⟨s, c', e1, e2⟩ := this
      rw [h1] at e1
      obtain ⟨-, rfl⟩ := Out.ok.inj e1
      exact e2
    refine ⟨⟨z1, ⟨by simp [hn1], by rw [if_pos hn1]; exact z2⟩, rfl, rfl, hx.1, hG.1.al0 hx.1, hx.2, ?_, ?_⟩, rfl, .inl z3⟩
    · intro i g1; simp at g1
    · intro i k g1; simp at g1
  · have hn' : 0 < n := Nat.pos_of_ne_zero hn0
    have hne : todo ≠ [] := by intro hc; subst hc; simp at hlen; omega
    by_cases hz0 : nnz = 0
    · obtain ⟨s2, ws, g1, g2, g3, g4, g5, g6⟩ := buildRows_RW0 todo (hRW0 hn' hz0) (hready hn') hpat hne (by simpa using hlen)
      rw [List.nil_append] at g6
      rw [hd] at g6
      refine ⟨s2, hprog s2 g1, hgood s2 g1, g3, g4, hasc, .inr ⟨ws, ?_, by simp [hz0], .inl g2⟩⟩
      rw [hv]
      obtain ⟨k1, k2⟩ := val_cs_const n m (sorted todo) h.dflt (decide (nnz = 0)) false
      rw [k1, k2]
      exact g6
    · have hsuf' : distinctTotal todo ≤ nnz := by rcases hsuf with h | h; exact absurd h hz0; exact h.2
      obtain ⟨b, rest, hR⟩ := hRW1 hn' (Nat.pos_of_ne_zero hz0)
      obtain ⟨hA, -⟩ := buildRows_RW1 (Nat.pos_of_ne_zero hz0) todo hR (hready hn') hpat hne (by simpa using hlen)
      obtain ⟨s2, rj, rv, ws, g1, g2, g3, g4, g5, g6⟩ := hA (by simpa using hsuf')
      rw [List.nil_append, hd] at g6
      have G := hgood s2 g1
      refine ⟨s2, hprog s2 g1, G, g3, g4, hasc, .inl ⟨rj, rv, ws, ?_⟩⟩
      rw [hv]
      obtain ⟨k1, k2⟩ := val_cs_const n m (sorted todo) h.dflt (decide (nnz = 0)) false
      have htot : Val.total ⟨n, m, (sorted todo).map fun c => c.map fun j => (j, h.dflt), decide (nnz = 0), false⟩ = distinctTotal todo := by
        rw [← Val.cs_len, k1, sorted_length_flatten]
      have e : s2.o.nnz = distinctTotal todo := by simpa using g2
      refine ⟨?_, .inr g6.ready, by rw [htot, e], by rw [htot, e]; omega, G.al0⟩
      rw [k1, k2]
      exact { g6 with ready := rfl }

theorem make_implicit (h : Heap B) (o : Obj B) (n m avg : Nat) (cbs : ℚ) (hav : 0 < avg) (hc : 0 ≤ cbs)
    (acc : List (Access B)) (hrow : ∀ a ∈ acc, a.row < n) (hfresh : h.dflt = h.vini) (hroom : RoomAtEveryRow n avg cbs acc) :
    ∃ s, implicitProgram n m avg cbs acc ⟨h, o⟩ = .ok () s ∧ Good h s ∧ Rep s.h s.o ⟨n, m,
      (List.range n).map fun i => (accCols acc i).sort.map fun j => (j, accVal acc i j h.vini), false, false⟩ := by
  obtain ⟨s1, jb, ab, J, A, ws, e1, d1, v1, H1, T1⟩ := ctorImplicit_ok h o n m avg cbs hav hc
  rw [← d1, ← v1] at T1
  obtain ⟨s2, J', A', b', o', w', e2, d2, v2, H2, T2⟩ := runEntries_ok acc H1 T1 hrow
  rw [← d2, ← v2, List.nil_append] at T2
  have G1 := ctorImplicit_good h o e1
  have G2 := keeps_runEntries acc h s1 G1 _ _ e2
  obtain ⟨a, -⟩ := compress_spec H2 T2 hav
  obtain ⟨s3, rows, g1, g2, g3, g4, g5, ⟨rj, cs, vs, rv, ws', S⟩, g7⟩ := a hroom
  have G3 := keeps_compress h s2 G2 _ _ g1
  have hprog : implicitProgram n m avg cbs acc ⟨h, o⟩ = .ok () s3 := by
    unfold implicitProgram
    rw [Cmd.bind_ok e1, Cmd.bind_ok e2, g1]
  have hview := C05_implicit_build_exact_values h o n m avg cbs hav hc acc hrow s3 hfresh hprog
  have hv2 := S.view
  have hv2' : view s3 = .ok (s3.o.n, s3.o.m, List.zipWith List.zip cs vs) := hv2
  rw [hview] at hv2'
  simp only [Res.ok.injEq, Prod.mk.injEq] at hv2'
  obtain ⟨hn, hm, hrows⟩ := hv2'
  refine ⟨s3, hprog, G3, hn.symm, hm.symm, ?_, .inl ⟨rj, rv, ws', ?_⟩⟩
  · intro r hr
    simp only [List.mem_map] at hr
    obtain ⟨i, -, rfl⟩ := hr
    exact asc_sort _ _
  · rw [hrows]
    have hlen : ∀ i (g1 : i < cs.length) (g2 : i < vs.length), vs[i].length = cs[i].length := by
      intro i g1 g2
      exact (S.win i (by rw [← S.lc]; exact g1) g1 g2).1
    have k1 : Val.cs (⟨n, m, List.zipWith List.zip cs vs, false, false⟩ : Val B) = cs := by
      simp only [Val.cs]
      apply List.ext_getElem (by simp [S.lc, S.lv])
      intro i a1 a2
      simp only [List.length_map, List.length_zipWith] at a1
      simp only [List.getElem_map, List.getElem_zipWith]
      rw [List.map_fst_zip (by rw [hlen i a2 (by omega)])]
    have k2 : Val.vs (⟨n, m, List.zipWith List.zip cs vs, false, false⟩ : Val B) = vs := by
      simp only [Val.vs]
      apply List.ext_getElem (by simp [S.lc, S.lv])
      intro i a1 a2
      simp only [List.length_map, List.length_zipWith] at a1
      simp only [List.getElem_map, List.getElem_zipWith]
      rw [List.map_snd_zip (by rw [hlen i (by omega) a2])]
    have htot : Val.total (⟨n, m, List.zipWith List.zip cs vs, false, false⟩ : Val B) = ∑ r ∈ Finset.range n, (accCols acc r).card := by
      rw [← hrows]
      simp only [Val.total, List.length_flatten, List.map_map, Function.comp_def, List.length_map, Finset.length_sort]
      rfl
    refine ⟨?_, .inr g2, ?_, ?_, G3.al0⟩
    · rw [k1, k2]; exact { S with ready := rfl }
    · rw [htot]
      by_cases h0 : 0 < n
      · rw [g5 h0]
      · have : n = 0 := by omega
        subst this
        simp
    · rw [htot]
      by_cases h0 : 0 < n
      · rw [g5 h0]; omega
      · have : n = 0 := by omega
        subst this
        have hacc : acc = [] := by
          cases acc with
          | nil => rfl
          | cons x l => exact absurd (hrow x (by simp)) (by omega)
        subst hacc
        have hk : ∃ s : St B, implicitProgram 0 m avg cbs [] ⟨h, o⟩ = .ok () s ∧ s.o.nnz = s.o.alloc ∧ (s.o.alloc = 0 ∨ ∃ b, s.o.a = some b) := by
          by_cases hz : 0 < osize 0 avg cbs
          · simp [implicitProgram, ctorImplicit, implicitAllocate, runEntries, compress, cmpRows, cmpNnz, allocate, allocateRows,
              allocateIdx, allocateData, setO, Cmd.bind_def, empty, Mem.alloc, hz, not_lt.mpr hc]
          · simp [implicitProgram, ctorImplicit, implicitAllocate, runEntries, compress, cmpRows, cmpNnz, allocate, allocateRows,
              allocateIdx, allocateData, setO, Cmd.bind_def, empty, Mem.alloc, hz, not_lt.mpr hc]
            omega
        obtain ⟨s, q1, q2, q3⟩ := hk
        rw [hprog] at q1
        obtain ⟨-, rfl⟩ := Out.ok.inj q1
        rw [q2]
        rcases q3 with q3 | ⟨b, q3⟩
        · omega
        · obtain ⟨l, l1, l2⟩ := G3.alen b q3
          have hH := S.ha
          rw [q3] at hH
          simp only [Mem.Holds] at hH
          rw [hH] at l1
          simp only [Option.some.injEq] at l1
          have e := congrArg List.length l1
          rw [List.length_append, l2] at e
          have hv0 : vs = [] := by
            apply List.length_eq_zero_iff.mp
            rw [S.lv, S.rows.1, ← hn]
          rw [hv0] at e
          simp at e
          omega

end BcrsWorld
end Istl
