import Verif.Lemmas.BcrsImplicit2

/-! # C05, C06 — implicit build mode -/

namespace Istl
open Bcrs
variable {B : Type}

theorem implicit_reach (h : Heap B) (o : Obj B) (n m avg : Nat) (cbs : ℚ) (hav : 0 < avg) (hc : 0 ≤ cbs)
    (acc : List (Access B)) (hrow : ∀ a ∈ acc, a.row < n) :
    ∃ s jb ab J A bufs ovr ws, implicitProgram n m avg cbs acc ⟨h, o⟩ = compress s ∧ s.h.dflt = h.dflt ∧ s.h.vini = h.vini ∧
      Imp s n m avg (osize n avg cbs) jb ab J A bufs ovr ws ∧ Tracks acc s.h.dflt s.h.vini avg bufs ovr := by
  obtain ⟨s1, jb, ab, J, A, ws, e1, d1, v1, H1, T1⟩ := ctorImplicit_ok h o n m avg cbs hav hc
  rw [← d1, ← v1] at T1
  obtain ⟨s2, J', A', b', o', w', e2, d2, v2, H2, T2⟩ := runEntries_ok acc H1 T1 hrow
  refine ⟨s2, jb, ab, J', A', b', o', w', ?_, by rw [d2, d1], by rw [v2, v1], H2, ?_⟩
  · unfold implicitProgram
    rw [Cmd.bind_ok e1, Cmd.bind_ok e2]
  · rw [d2, v2]; simpa using T2

/-- Whenever the implicit program ends normally, the matrix is built, row `i` contains exactly the accessed columns of row
`i`, ascending, and each value is the result of applying the accesses to that entry in program order to a fresh block
(default-initialised in the row buffer, value-initialised in the overflow map). -/
theorem C05_implicit_build_exact (h : Heap B) (o : Obj B) (n m avg : Nat) (cbs : ℚ) (hav : 0 < avg) (hc : 0 ≤ cbs)
    (acc : List (Access B)) (hrow : ∀ a ∈ acc, a.row < n) (s : St B)
    (hok : implicitProgram n m avg cbs acc ⟨h, o⟩ = .ok () s) :
    s.o.ready = .built ∧ ∃ rows, view s = .ok (n, m, rows) ∧ rows.length = n ∧
      ∀ i (hi : i < rows.length), rows[i].map Prod.fst = (accCols acc i).sort ∧
        ∀ e ∈ rows[i], ∃ z, (z = h.dflt ∨ z = h.vini) ∧ e.2 = accVal acc i e.1 z := by
  obtain ⟨s1, jb, ab, J, A, bufs, ovr, ws, e1, d1, v1, H, T⟩ := implicit_reach h o n m avg cbs hav hc acc hrow
  rw [e1] at hok
  obtain ⟨a, b⟩ := compress_spec H T hav
  by_cases hf : RoomAtEveryRow n avg cbs acc
  · obtain ⟨s', rows, g1, g2, g3, g4, g5, g6, g7⟩ := a hf
    rw [g1] at hok
    obtain rfl : s' = s := by injection hok
    refine ⟨g2, rows, g3, g4, fun i hi => ?_⟩
    rw [← d1, ← v1]; exact g7 i hi
  · obtain ⟨s', g1⟩ := b hf
    rw [g1] at hok; exact absurd hok (by simp)

/-- If fresh blocks are zero (or any fixed `z`), the values are plainly the accumulated ones. -/
theorem C05_implicit_build_exact_values (h : Heap B) (o : Obj B) (n m avg : Nat) (cbs : ℚ) (hav : 0 < avg) (hc : 0 ≤ cbs)
    (acc : List (Access B)) (hrow : ∀ a ∈ acc, a.row < n) (s : St B) (hfresh : h.dflt = h.vini)
    (hok : implicitProgram n m avg cbs acc ⟨h, o⟩ = .ok () s) :
    view s = .ok (n, m, (List.range n).map fun i => (accCols acc i).sort.map fun j => (j, accVal acc i j h.vini)) := by
  obtain ⟨-, rows, h1, h2, h3⟩ := C05_implicit_build_exact h o n m avg cbs hav hc acc hrow s hok
  rw [h1]
  congr 3
  apply List.ext_getElem (by simp [h2])
  intro i hi hi'
  obtain ⟨h4, h5⟩ := h3 i hi
  simp only [List.getElem_map, List.getElem_range]
  rw [← h4, List.map_map]
  conv_lhs => rw [← List.map_id rows[i]]
  apply List.map_congr_left
  intro e he
  obtain ⟨z, hz, hv⟩ := h5 e he
  have : z = h.vini := by rcases hz with rfl | rfl; exact hfresh; rfl
  subst this
  exact Prod.ext rfl hv

/-- The implicit program never has undefined behaviour; it ends normally exactly when there is room at every row and throws
`ImplicitModeCompressionBufferExhausted` otherwise. -/
theorem C06_compress_fails_iff_exhausted (h : Heap B) (o : Obj B) (n m avg : Nat) (cbs : ℚ) (hav : 0 < avg) (hc : 0 ≤ cbs)
    (acc : List (Access B)) (hrow : ∀ a ∈ acc, a.row < n) :
    (RoomAtEveryRow n avg cbs acc → ∃ s, implicitProgram n m avg cbs acc ⟨h, o⟩ = .ok () s) ∧
    (¬ RoomAtEveryRow n avg cbs acc → ∃ s, implicitProgram n m avg cbs acc ⟨h, o⟩ = .throw .compressionBufferExhausted s) := by
  obtain ⟨s1, jb, ab, J, A, bufs, ovr, ws, e1, d1, v1, H, T⟩ := implicit_reach h o n m avg cbs hav hc acc hrow
  rw [e1]
  obtain ⟨a, b⟩ := compress_spec H T hav
  refine ⟨fun hf => ?_, fun hf => b hf⟩
  obtain ⟨s', rows, g1, -⟩ := a hf
  exact ⟨s', g1⟩

/-- The documented sufficient condition: when the entries beyond `avg` per row, counted over all rows, fit into the overflow
area, `compress()` succeeds (whatever the order of the accesses). -/
theorem C06_enough_overflow_suffices (h : Heap B) (o : Obj B) (n m avg : Nat) (cbs : ℚ) (hav : 0 < avg) (hc : 0 ≤ cbs)
    (acc : List (Access B)) (hrow : ∀ a ∈ acc, a.row < n)
    (hover : avg + ∑ r ∈ Finset.range n, ((accCols acc r).card - avg) ≤ osize n avg cbs + 1) :
    ∃ s, implicitProgram n m avg cbs acc ⟨h, o⟩ = .ok () s := by
  apply (C06_compress_fails_iff_exhausted h o n m avg cbs hav hc acc hrow).1
  intro i hi
  have h1 : ∑ r ∈ Finset.range (i + 1), (accCols acc r).card ≤
      ∑ r ∈ Finset.range (i + 1), (((accCols acc r).card - avg) + avg) :=
    Finset.sum_le_sum fun r _ => by omega
  rw [Finset.sum_add_distrib, Finset.sum_const, Finset.card_range, smul_eq_mul] at h1
  have h2 : ∑ r ∈ Finset.range (i + 1), ((accCols acc r).card - avg) ≤ ∑ r ∈ Finset.range n, ((accCols acc r).card - avg) :=
    Finset.sum_le_sum_of_subset fun x hx => by simp at hx ⊢; omega
  rw [Nat.add_mul] at h1
  omega

/-- Every matrix with at most `avg` entries per row compresses: the overflow area always has room for `4·avg`. -/
theorem C06_average_never_fails (h : Heap B) (o : Obj B) (n m avg : Nat) (cbs : ℚ) (hav : 0 < avg) (hc : 0 ≤ cbs)
    (acc : List (Access B)) (hrow : ∀ a ∈ acc, a.row < n) (hle : ∀ r, r < n → (accCols acc r).card ≤ avg) :
    ∃ s, implicitProgram n m avg cbs acc ⟨h, o⟩ = .ok () s := by
  apply C06_enough_overflow_suffices h o n m avg cbs hav hc acc hrow
  rw [Finset.sum_eq_zero fun r hr => by have := hle r (Finset.mem_range.mp hr); omega]
  have : avg ≤ osize n avg cbs := by
    unfold osize
    apply Nat.le_floor
    have : (0 : ℚ) ≤ (n * avg : ℚ) * cbs := by positivity
    have : (0 : ℚ) ≤ avg := by positivity
    linarith
  omega

/-- The accesses used in the examples: one row with eight columns, `avg = 1`. -/
private def demo : List (Access Int) := [7, 3, 5, 3, 1].map fun j => ⟨0, j, fun v => v + j⟩

private def demoHeap : Heap Int := { js := [], as := [], junk := 9, dflt := 0, vini := 0 }

/-- Non-vacuity of C05: four columns in row 0 with `avg = 1` (three go to the overflow map), one access repeated. -/
example : (match implicitProgram 2 8 1 0 demo ⟨demoHeap, empty⟩ with
    | .ok _ s => view s
    | _ => .ub) = .ok (2, 8, [[(1, 1), (3, 6), (5, 5), (7, 7)], []]) := by decide +kernel

/-- Non-vacuity of C06, both sides: with `avg = 1` and no extra overflow area, five entries in row 0 fit, six do not. -/
example : RoomAtEveryRow 1 1 0 ([0, 1, 2, 3, 4].map fun j => (⟨0, j, id⟩ : Access Int)) ∧
    ¬ RoomAtEveryRow 1 1 0 ([0, 1, 2, 3, 4, 5].map fun j => (⟨0, j, id⟩ : Access Int)) := by
  have h : osize 1 1 0 = 4 := by unfold osize; norm_num
  constructor
  · intro i hi
    obtain rfl : i = 0 := by omega
    rw [h]; decide
  · intro hc
    have := hc 0 (by omega)
    rw [h] at this
    exact absurd this (by decide)

/-- The hypothesis `0 < avg` cannot be dropped: with `avg = 0` the matrix has no arrays at all, one access is accepted and
`compress()` writes through a null pointer. -/
theorem C06_avg_zero_counterexample :
    (match implicitProgram 1 1 0 0 [⟨0, 0, id⟩] (⟨demoHeap, empty⟩ : St Int) with | .ub => true | _ => false) = true := by
  decide +kernel

end Istl
